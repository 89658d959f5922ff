# Design: a Lean 4 model of notatin and what is proved about it

Source: `/repo` (strozfriedberg/notatin, Rust). Properties: `properties.jsonl`
(ids `C01`…). Theorems per property: `MANIFEST.json`. Mutation log:
`seeded/LOG.jsonl`.

## 1. Trusted base

* The Lean 4 kernel, and the three standard axioms `propext`, `Quot.sound`,
  `Classical.choice` (no other axiom is used; no `sorry`, no `native_decide`,
  no `bv_decide`). `Verif/Audit.lean` prints the axioms of every property theorem
  during the build.
* The reading of the Rust source: every model definition cites the file and
  lines it transcribes. The model was written by hand; there is no extraction.
* Third-party code is not modelled: nom (only its `complete` combinators, as
  total parsers), blake3 (an arbitrary function parameter), chrono, regex (an
  arbitrary predicate parameter), winstructs, serde, xlsxwriter, the file system.

### 1.1 What is modelled, by source file

| file | modelled | not modelled |
|------|----------|--------------|
| `src/base_block.rs` | both header parsers, checksum, sequence numbers, file type and format | `PartialEq`, `Serialize` |
| `src/cell.rs`, `src/hive_bin_header.rs`, `src/hive_bin_cell.rs` | cell state, bin header, sub-key list dispatch | trait plumbing, `Debug` |
| `src/cell_key_node.rs` | parser, reading with state and filter, versions, values, sub-keys, security descriptors (offset ring and descriptor bytes), lookup of sub-keys and values, hash, flags, dates | simple getters; contents of security descriptors (winstructs) |
| `src/cell_key_value.rs`, `src/cell_big_data.rs`, `src/cell_value.rs` | parser, data in all three layouts, slack, content, decoding, hash, type table, flags | simple getters |
| `src/cell_key_security.rs` | parser, ring walk | the descriptor inside (winstructs) |
| `src/cli_util.rs` | log names, path splitting, file checks | `anyhow` texts |
| `src/err.rs`, `src/lib.rs`, `src/progress.rs` | – | error texts, re-exports, progress bar |
| `src/field_offset_len.rs`, `src/field_serializers.rs`, `src/macros.rs` | offsets, lengths and interpretations as they appear in JSON (`full` and light) | the generic containers themselves; `Display` |
| `src/file_info.rs`, `src/util.rs`, `src/log.rs`, `src/state.rs`, `src/reg_item_map.rs`, `src/marvin32.rs` | everything but the texts of log entries (parameters) | `tell`, plain constructors |
| `src/filter.rs` | filter, builder, matching; regular expressions are predicates with a `compile` parameter | the regex engine |
| `src/parser.rs`, `src/parser_builder.rs` | opening, replay of logs, both iterators, lookups, parents, root, counts | console options |
| `src/parser_recover_deleted.rs`, `src/transaction_log.rs` | everything | – |
| `src/sub_key_list_*.rs` | all four lists and their nesting | `size` getters |
| `bin/reg_dump/*.rs` | the four writers, files, folders, filter option | command line parsing (clap), printing to the terminal, cell formats and shading of the workbook; the workbook library is a list of cell writes with its limits |
| `bin/reg_compare.rs` | comparison, both outputs, files, folders | command line parsing, progress |
| `pynotatin/src/*.rs` | parser, builder, keys, values, iterators, dates, content, decoding | `PyLogger`, exception classes, pyo3 itself |

Written out from their documentation instead of being opaque, because the properties depend on them: the calendar
of chrono (`Model/Time.lean`), `Debug` of texts, lists and bitflags (`Model/Texts.lean`), the output of serde_json
(`Model/Json.lean`), `BufWriter` (`Model/Files.lean`). These descriptions are part of the trusted base.

Machine arithmetic is that of a build with overflow checks (a panic is a result of the model); call stacks are bounded
by the parameter `depth` and exceeding it is a panic.

## 2. Modelling conventions

* Bytes are `List UInt8`; machine integers are `Nat`/`Int` read from bytes by
  explicit little-endian decoders (so they are in range by construction), or
  `BitVec`/`UInt32` where bit operations matter (checksum, Marvin32).
  Wrapping, truncation and overflow are written out explicitly.
* A nom parser is `Bytes → Option (α × Bytes)`; the error payload is dropped.
* A function that may fail returns `Res α` = `ok a | err | panic`; a Rust panic
  (index out of range, `unwrap` on `None`, failed `assert!`, arithmetic
  overflow in a debug build) is the explicit value `panic`, never a default.
* `&mut` parameters become additional results. Loops become recursion on the
  input, or recursion with fuel where termination is itself a property.
* Log messages are kept as their `LogCode`; the message text is dropped.
* `get_full_field_info` (offset and length beside each field) is modelled where it is observable, in the
  JSON export (`full` in `Model/Json.lean`, C56).

## 3. Plan per property

| id | what is modelled | how it is proved |
|----|------------------|------------------|
| C01 | `calculate_checksum` over bytes | equality with a fold over the dword list; case split on substitution; XOR cancellation for single-dword change |
| C02 | header parser, `update_header_after_transaction_logs` | byte-update lemmas, parser depends only on slices |
| C03 | page application loop of `update_parser` | induction over the page list against a pointwise "last covering page" spec |
| C04 | entry loop of `update_parser` | refinement to "longest admissible prefix" spec by induction over entries |
| C05, C06 | `TransactionLog::parse` | stable sort lemmas (`mergeSort`), `filterMap` spec |
| C07 | `apply_transaction_logs` | expected to fail: witness of the negation; partial theorem for one log |
| C08, C09, C10 | `next_key_preorder`/`next_key_postorder`, context stack and offset set | well-founded measure (unvisited offsets, stack weight); induction over trees |
| C11, C12, C43 | `check_key_match`, `FilterBuilder`, `get_key`, `get_sub_key` | induction over segments, refinement to path walk; C12 for every path: what a path asks for is a separate relation (`AsksFor`, shown to hold of exactly one list of names; `AsksBelow` with the root in front) |
| C13, C14 | `CellKeyNode::from_bytes`, `CellKeyValue::from_bytes` | encoder/decoder round trip and rejection lemmas |
| C15 | `read_value_bytes_direct`, `get_big_data_bytes` | layout relation on the buffer, induction over segments |
| C16 | `parse_sub_key_list` and the four list parsers | induction over entries and nesting depth; items beyond 32 bits by form in `hashed_list_far`, `plain_list_far` |
| C17 | `get_value_content`, `get_content` | case analysis |
| C18, C19, C40 | UTF-16/ASCII decoders | induction over characters with an independent encoder |
| C20 | `get_date_time_from_filetime` | integer arithmetic; witness for the wrap-around |
| C21–C25 | small utilities | induction over text/bytes |
| C26 | recover-deleted scan (`parser_recover_deleted.rs`) | induction on stack depth and remaining bytes with an invariant on what was put on record; witness for every depth |
| C49 | the same, and the bin loop of `Parser` | induction over the bins and cells of a well-formed hive; witness |
| C27 | state maps | induction over operation histories |
| C28 | security ring walk | induction over the ring; witness of non-termination |
| C29, C35 | Marvin32, log-entry parser | bijectivity of the block step; round trip |
| C30 | `reg_compare` (both loops as one over keys and values; map iteration order a parameter), `write_text` (time, flags and content of a row are parameters) | closed form of the loops by induction, refinement to set comparison of the two listings; lookups by path find the listed keys (reading a key again gives the same key); witnesses |
| C31 | `write_diff`, `write_diff_section` | the text read back line by line against an inductive definition of a hunk sequence; witness |
| C32 | `bin/reg_dump/common_writer.rs` (`write`): rows, flags, totals with their u32 overflow, the slice of the path; the timestamp text is a parameter | the totals and the rows grow together, by induction over listing, values and versions; that it finishes from an invariant of iteration on paths; with recovery and logs from the same invariant on all that the scan and the analysis record (`open_slashed`, `listing_slashy`) |
| C33 | `bin/reg_dump/tsv_writer.rs` (`write`, `write_key_tsv`, `write_value_tsv`) and the row choice of `xlsx_writer.rs`: index, recovered-only, recursion over versions; the columns after the index are parameters | the rows are the numbered items of the listing, by induction over nodes nested in versions; `Spec.ExportItem.touched` is README's wording of `--recovered-only`, equal to the code's choice when every key with a changed value is changed itself |
| C34 | flag/enum decoding | bitwise reasoning |
| C36, C39, C44 | value lookup, value list reading, sub-key index | induction over lists |
| C37 | `get_reg_items`, `TransactionAnalyzer` (`reg_item_map.rs`, the map iteration order being a parameter) | closed form of the two loops by induction over the items, refinement to set comparison; every iterated key is read back from the file (invariant of the iteration); witnesses |
| C42 | `update_modified_lists` | induction on the attachment depth; witness for root |
| C38 | `cli_util.rs` (`parse_paths`, `get_log_files`, `check_add_log`, `get_log_name`); a path is a list of names, the file system a parameter | case analysis against a folder listing with its own rule for equal names; induction over the components of the list; witnesses |
| C50, C51 | `process_folder`, `process_folders`, `get_outpath`, `file_has_size`; `WalkDir` and the export of one file are parameters | names of outputs are injective on names without dots and underscores; induction over the jobs; witnesses |
| C52 | the columns of `write_key_tsv`, `write_value_tsv`, `get_sequence_num_string`, `escape_string`; the texts of times, flags, types and data are those of C58-C60, the texts of log entries are parameters | a reader of such tables inverts the rows, by induction over the fields and the rows |
| C53, C54 | `bin/reg_dump/xlsx_writer.rs`: `write`, `write_key`, `write_value`, `safe_split_at`, `safe_truncate`, `write_string_handle_overflow`, `check_write_string`, `is_legal_xml_1_0`, `sanitize_for_xml_1_0`, `sanitize_cell`; `Display` of `CellValue`. A sheet is the list of writes; the limits of the library (rows, columns, characters, links) are in `Sheet.put` and `Sheet.link`; formats and shading are not modelled | invariant of the sheets over the traversal (what is shown at every row and column); a second one for the characters; a measure of the room for termination with success |
| C55 | `bin/reg_dump/json_writer.rs`: `WriteJson`; the derived `Serialize` of keys, values, logs and field details. JSON is a tree; the text of numbers and strings is modelled, times and flags have the texts of C58 and C59 | an independent reader of JSON texts; structural induction over values and versions; one line per key because escapes leave no line feed |
| C56 | the fields with offsets and lengths that `from_bytes` of keys and values fills in full mode | every field is parsed from the bytes it names (per-cell lemma), carried through the iteration as an invariant of the stack |
| C57 | `bin/reg_dump/common_writer.rs` (as for C32), `data_type as u32` | the reader of tables of C52 with commas; the rows do not depend on the counters; comments are skipped line by line |
| C58 | `format_date_time`, `get_date_time_from_filetime`; the civil date of `chrono` (proleptic Gregorian) and its `to_rfc3339` fraction rule are modelled from their documentation | a reader of the text with its own calendar arithmetic; strings of fixed width compare as tuples; witness |
| C59 | `key_node_flags`, `access_flags`, the tables of the flags; `Debug` of the `bitflags` crate is modelled from its documentation | a reader of `Type(A \| B)`; induction over a table of names; the texts of the exports are instantiated (`Prints`) |
| C60 | `Display` of `CellValue`, `get_type`; `Debug` of lists of texts is modelled (escapes), the set of characters printed as they are is a parameter | a reader of such lists and of numbers and bytes inverts them |
| C61 | `get_content` in the rows of the exports | from C17 and C55; witness |
| C62, C63, C64 | `ParserBuilderFromFile::build`, `Parser::init` and the iterator together, from the bytes of the files (`Model/Open.lean`); reading files from disk is not modelled | composition of the layers: logs (C35), replay (C03, C07), root and iteration (C09); for C63 two runs are related by an invariant of the recovery state; witnesses on a concrete file of 4477 bytes For all bytes (`recovery_same_in_use_partial`): the iterations with and without things on record run side by side, the stacks agree but for keys not in use (`Mixed`, Lemmas/LiveSame.lean), since recovery files only such keys (`Filed`) and never caches a root offset (Lemmas/ZeroRoot.lean). |
| C65 | `get_parent_key` | the listing with the parent of each entry, by induction over the tree; the parent field of every listed key is the stored one (C56); witnesses |
| C66 | `date_to_pyobject` and the functions under it | integer arithmetic; the calendar of C58 |
| C67 | `PyNotatinParser`, `PyNotatinKey`, their iterators | refinement to the Rust iteration (C62) and lookup (C12) with an invariant of the object; induction over call sequences; the violation holds for every object |
| C68 | `PyNotatinParserBuilder`, `FileOrFileLike` as content and position | reading a path does not change it; witness |
| C69 | `prepare_content`, `content`, `value` | case analysis over C17; witness |
| C70 | nothing new: the layers of C09, C11, C12, C14, C15, C39 and C62 together | every key the iteration shows is shown to be the result of one read of its cell (`IsShown`, `Reads`), so its values are those of `read_values`, for which C39, C14 and C15 give names, types and data; the invariants of the iteration carry this through the stack, together with which key of the tree it is (`KeyTold`: place, name, time, flags, number of sub-keys, values; nothing recovered); an example hive with two values |
| C71 | `main`, `process_file`, `reg_dump` of `bin/reg_dump/main.rs` on a disk (paths to bytes), with the opening and the four writers of the other properties | the listing with what is told of every key (C70) carried through each writer and its reader (C52, C53, C55, C57, C58, C59, C60) to a statement about the stored tree alone (`Spec/Dump.lean`); logs found can be opened; the filter with a backslash in front asks for nothing |
| C72 | `BufWriter` (buffer of 8192 bytes over a file that takes `limit` bytes, flush on drop without a result), the writers' use of it, the loops over folders with what they do with errors; the workbook library is a parameter (`pack`) | invariant of the buffer over all sequences of writes: the file is the longest beginning of the text that fits; success bounds what is missing by the buffer; witnesses for lost errors |
| C73 | the effect of `reg_dump` and `reg_compare`, for files and folders, on the disk; the list of files `WalkDir` yields is fixed before the run | frame lemmas; output names end differently from the names of hives and logs; what a run reads depends only on files with such names, so each export is the one of the original disk |
| C74 | `reg_compare` from the options to the text: opening both hives, the listings with hashes (C30), `write_text`/diff output (C31), `format_key`, `format_value`, `Debug` of contents | `Spec/CompareTells.lean`: the stored trees with values and flags, their differences by path and name, what a row says; listings tied to the trees entry by entry (`listing_stored`), the reported lists carried over by lemmas on pairwise related lists (`reported_stored`), the text read back |
| C75 | opening with recovery and logs as in C62, C37 and C42 together: `openHive` with `World.scan`, `World.initItems`, `World.analyze`, then `updateModifiedLists` and the iteration | `Spec/History.lean`: states of the file (bytes, stored tree, values), the entries between them by the bytes they write, lost keys; one entry adds exactly the records of the keys lost in it (`records_step`), induction over the entries (`records_run`), what is attached is what can be reached along the records (`lost_reached`, `attach_sound`), each once (`attach_once`, `attached_once`: between a survivor and what is attached to it there is no other survivor); entries that enlarge the hive bins: the code adds the growth since the header again at every such entry, so its file has extra zero bytes at the end, which do not change what is stored (`replays_apply`, `ordinary_more`) |
| C76 | the same as C75 | `Spec/Overwritten.lean`: states with the flags of the values, what an entry changes or removes, since when an item is what it is; invariant: the items carried from entry to entry are those of the last state, each with the number of the entry since which it is so (`Kept`), and the records are exactly those of the entries so far, without the removals that were taken back (`PastRecords`, `kept_records`); one entry (`kept_step`), induction (`kept_run`), attaching sorts the records (`attached_tells`), the iteration shows them (`past_shown`) |
| C77 | opening with recovery (`World.scan` in `openHive`), `initRecoverDeleted` as in C26/C49, `updateModifiedLists` on the root, the iteration | `Spec/Recovered.lean`: what a listed key or value from free space tells of its cell, completeness over the bins, the order of the listing; from the scan (`scan_records`) by way of what is attached to the root (`Scanned.attached`) to the listing (`scanned_shown`) |
| C78 | all of C71, C75, C76: `dumpFile` with recovery on a dirty hive, down to the text read back | `Spec/DumpPast.lean`: what rows and lines say about the states of the file between log entries, independent of the lists the code keeps; `history_listed` joins the listings of C75 and C76, then row by row with `fields_tell`, `tsv_read_back`, `xlsx_rows`, and line by line with `jsonl_read_back_partial`; that no key has two rows or lines, from C75 (`ListsHistory.ofKeys`) |
| C79 | all of C77 and of C71: `dumpFile` with recovery on a clean hive, down to the text read back | `Spec/DumpFree.lean`: one statement about the records of an export (`RecordsTellFree`), in terms of the bytes of the hive, used for tables and the common format, another for lines; `records_tell_free` takes the listing of C77 to the list of exported items, then row by row (`rows_tell`), record by record (`common_tells_free`) and line by line (`lines_tell_free`) |
| C80 | `dumpFile` with `.Tsv` and with `.Xlsx`, both down to the text and the sheets read back | both exports read the same parser and the same listing (`dump_parts`, `collect_unique`); rows by `HasRows` of C78 (`table_rows`), log by `Spec.HasLogs` (`table_logs`) |
| C81 | all of C74 with the filter built from the option `-f` (`dumpFilter`) in both listings | `Tree.keysUnder` in `Spec/CompareTells.lean`: keys at and below a path; `filtered_under` ties the listing of C11 to it, `compared_says` is the statement of C74 for any lists of keys |
| C82 | `build` from the files to the codes of `get_parse_logs` (texts of messages are a parameter), `dumpFile` down to the log read back | codes followed through every step of opening (`updateEntries_told`, `applyLogs_told`, `applyTransactionLogs_told`): one more per entry or log passed over; log files as encodings (`Spec.RawLog`); the export by `table_logs` of C80 |
| C83 | `build`, `iterate`, `dumpFile` on arbitrary bytes, without recovery (`Spec.SaneLog`, `Spec.SaneLists` state on the bytes what is asked of logs and lists) | every step of opening, reading a key and iterating shown not to panic (`openHive_safe`, `readKey_safe`, `collect_safe`, in post-order `collect_post_safe`); the cached root offset is the same for all paths below one root (`root_part`), so the filter never cuts outside a path; ending by C08; writers by `writeJson_safe`, `writeXlsx_safe`, the common format by C32 |
| C84 | `getKey`, `getSubKeyByPath`, `getSubKeyByIndex`, `nextSubKey`, `readSubKeys`, `getParentKey` on arbitrary bytes, and every sequence of them (`Obtained`) | every key obtained is a key cell of the file (`obtained_cell`); the search by path goes down only as many levels as its filter has components, since a longer path never passes it (`filterStep_rooted`, `getSubKeyInternal_safe`) |
| C85 | `countAll`, `countModified` (the loops over the iterator) | the loops as lengths and sums (`countKeysValues_eq`, `countMods_eq`), then C70, C77, C75 and C76 for what is listed |
| C86 | `build` with recovery, `iterate`, `dumpFile` on arbitrary bytes | the scan by C26 with a stack bound of 24 bytes per call (`findCellsInSlack_ok`); what it records can be attached, since nothing is attached to keys of free space (`attachOk_scan`); the invariant of C83 with recovered keys in the stack of the iteration (`StateSafe`, `NodeSafe`); lookups by the invariant of C84, which allows for recovered keys attached to the key at hand (`CellKey`, `CellOpen`); witness for every depth; with log entries applied (`build_logs_safe`): an invariant of what recovery records, by which paths grow along attaching, so that it ends (`StFine`, `level`), kept by reading, listing, comparing and recording (`readKey_fine`, `list_fine`, `analyzeEntry_fine`) and along all states of the file (`Stage`, `CalmStages`); it ends since more rounds change nothing in the scan (`scanBins_before`) and each listing ends by C08 (`Settles`); lookups after that need only that what is on record can be attached and is deleted (`Known`, `obtained_live`); without those hypotheses: witness at a stack of a million calls, by induction over the fuel of attaching (`attach_roots_loop`) |
| C87 | `get_pretty_path` (`Node.prettyPath`), `getKey` on a hive opened without recovery, `PyParser.open` | the names of a listed key by `walkTo_named`, the lookup by `get_key_found` and `first_at_walk` (C12), the cut by `root_prefix_stripped`; that the root is not found by its pretty path: what is found has as many names as the path (`firstAt_other`) |
| C88 | `readSubKeys`, `getSubKeyByIndex`, `nextSubKey` for any file, state and key | reading with the empty filter is reading without one (`readKey_open_filter`); induction over the list for all at once (`readSubKeysLoop_ways`) and for one after the other (`collect_ways`); witnesses by evaluation of whole hives |
| C89 | pre-order `iterate` of any built hive, any filter | spec `Reachable`: sub-key lists in order (`ListAt`), readable cells. Invariant over `collect (nextPre env)`: every marked offset is on the stack or done, and the sub-keys of what is done are marked (`collect_reaches`); so the live keys listed are closed under sub-keys. With a filter, all that is listed lies in any closed set that holds the root (`collect_within`). Post-order: the invariant `PostInv` over stack, return stack and keys given (`collect_post`), and a measure of unmarked offsets, weight of the stack and length of the return stack (`post_ends`). Together with C83 (`all_listed_partial`, with recovery and logs `all_recovered_partial`): whatever the bytes, if lists do not nest too deep, both listings end and hold the same keys once, all reachable ones among them. Wider reachability over half-broken lists is refuted by `broken_leaf_violated` |
| C90 | `Builder.build`, `iterate`, `getKey`, `getParentKey`, `dumpFile` in two worlds | Every function with a limit on depth or steps is monotone in it: with more room it gives the same, unless it crashed or was still running before (`Res.Le`, `RunLe`, Lemmas/Deeper.lean); so two runs are both compared with one in a world with the larger limits (`build_keeps`, `iterate_keeps`, `dump_keeps`). Without recovery the order of hash maps is not looked at (`plain_order`). With recovery it is, and shows: `hash_order_violated`, `dump_order_violated` give one hive and one log listed and exported in two orders; the keys in use are the same in every order (`in_use_again`, from C63 for all bytes). Simplified: when the analysis of a log entry crashes, the model goes on replaying, so an error of a later entry is reported in place of the crash; the theorems are about runs that succeed. |
| C91 | nothing new: `TransactionLog::parse`, `apply_transaction_logs`, `update_parser` as for C04 and C05 | warnings have no influence on the replay (`applyLogs_info`); after a log either nothing was written, and its copy again writes nothing, or the number reached is not below the one in its header, so the copy is skipped (`updateParser_last`); the sorted list has the copy directly behind the log (`parse_twice`) |
| C41 | `prepare_transaction_logs`, `handle_bad_checksum` | decision table |
| C45, C46 | `read_value_bytes_direct`, `get_big_data_bytes` | same layout relation; witnesses |
| C47 | `decode_content` | case analysis; witnesses |
| C48 | `next_key_postorder` with `Filter::check_cell` | induction over the tree, against the filtered post-order listing; witness |

## 4. Disagreements between code and properties

Each row is a kernel-checked witness (a theorem ending in `_violated`, or the one named).

| property | what the code does | theorem |
|----------|--------------------|---------|
| C04 | with secondary sequence number 0 an entry numbered 0 leaves "no previous entry", so a non-consecutive entry is applied | `applied_run_violated` |
| C06, C35 | a log entry whose size field is below 40 makes the log reader panic (`len - 40`) | `unreadable_log_violated` |
| C07 | a later log without usable entries resets the number to 0; only the log header's number, not the first entry's, is compared with the last applied one; a log without any usable entry sets the header numbers to 0 | `header_seq_violated` |
| C19 | MULTI_SZ: characters outside the BMP are lost, blank strings dropped | `multi_sz_violated`, `multi_sz_blank_violated` |
| C20 | times before 1601+… or beyond the nanosecond range of `i64` wrap | `filetime_violated` |
| C24 | malformed LZNT1 input panics | `lznt1_panics` |
| C41 | the header taken over from the newest log is not itself checked | `recovered_header_violated` |
| C13 | a key cell may claim 72 bytes although the fixed part has 80, and the name length is not compared with the cell size: fields are read from the following cell | `nk_inside_violated` |
| C14 | the name length of a value cell is not compared with the cell size | `vk_inside_violated` |
| C34 | one undocumented bit in the value flags drops all flags, so an ASCII name is decoded as UTF-16, without a warning | `value_flags_violated` |
| C15 | data of fixed-length types is cut to the type's width; data of a plain cell longer than 16344 bytes starting with `db` is read as a big data header | `value_data_truncated_violated`, `value_data_db_violated` |
| C16 | an entry offset near 2^32 makes the offset addition overflow; an index root that lists itself recurses until the stack overflows | `sub_key_list_violated`, `sub_key_list_cycle_violated` |
| C28 | the security list walk stops only at its first cell, so a list looping elsewhere never ends | `security_ring_violated` |
| C45 | big data with too few bytes in its segments is returned without a warning | `incomplete_data_violated` |
| C46 | offsets of big data segments are relative to the hive bins, those of other data absolute | `data_offsets_violated` |
| C47 | decoding panics on malformed LZNT1 data, and on MULTI_SZ with a positive offset | `decode_content_violated` |
| C27 | removing the last deleted key below a path erases the map entry of the key's own path instead of its parent's | `deleted_keys_violated` |
| C39 | a value list outside the file yields no values and no warning | `read_values_violated` |
| C08 | a sub-key list that lists itself aborts the very first call of the iteration by stack overflow | `iteration_aborts`, `iteration_violated` |
| C10 | post-order counts only live sub-keys, so with a recovered key the parent is yielded before it, and the grandparent before its remaining sub-keys | `postorder_example`, `postorder_violated` |
| C11 | the root key is never compared with the filter: it is missed when the filter names it, and shown among the ancestors when the filter excludes it | `filter_root_missed`, `filter_root_shown` |
| C11 | a cell below the root that carries the root flag passes every filter | `filter_root_flag_violated` |
| C11 | patterns are lower-cased before they are compiled, which changes classes such as `\\D` | `pattern_lowered_violated`, `filter_violated` |
| C48 | post-order returns the keys on the way to a match although ancestors were not asked for | `postorder_filter_example`, `postorder_filter_violated` |
| C43 | `get_sub_key` on the root finds no sub-key; once the root offset is cached it slices past the end of the path and panics | `get_sub_key_root_none`, `get_sub_key_root_panics`, `get_sub_key_violated` |
| C42 | items recorded under the path of the root are never attached, because the root looks under the empty path | `attach_root_violated` |
| C42 | with two deleted root keys on record, attaching recurses without end | `attach_loops_violated` |
| C26 | cells nested in the slack of cells, 24 bytes each, make the scan recurse until the stack overflows | `recover_overflow_violated` |
| C49 | the loop over the bins compares the offset in the file with the size of the bins data, so the last 4096 bytes of bins are never scanned | `recover_misses_last_bins`, `recover_misses_last_bins_violated` |
| C37 | when a deleted key turns up again, the deletions recorded below it are forgotten | `analysis_lost_violated` |
| C37 | keys recovered from the primary file are attached to the root, iterated like live keys, and taken off the record by the first log entry | `analysis_recovered_violated` |
| C37 | of two sub-keys with the same name only the last is kept for the comparison, so an entry that changes nothing records a modification | `analysis_unchanged_violated` |
| C37 | when the root cannot be read after an entry, the items from before are kept and the next entry is compared with them | `analysis_stale_violated` |
| C30 | a deleted or modified key whose name contains a backslash makes the comparison panic | `compare_backslash_violated` |
| C30 | keys that differ only in case are mixed up: the wrong key is reported as deleted | `compare_case_violated` |
| C30 | iteration starts at the first cell, lookup at the root cell of the header; if they differ the comparison panics | `compare_root_violated` |
| C31 | a name with a line feed is printed as it is and breaks the hunk | `diff_newline_violated` |
| C32 | for a file that is no hive the listing is one made-up key without a path; the common export panics on it | `common_default_violated` |
| C38 | where case matters, `NTUSER.DAT.LOG1` beside `NTUSER.DAT` is not found (it is looked for as `ntuser.dat.LOG1`; likewise `UsrClass.DAT`) | `log_files_violated` |
| C38 | where case matters, logs with `.log1`/`.log2` in lower case are not found | `log_files_case_violated` |
| C50 | the extension is cut at the last dot of the whole relative path: all hives below a folder `jo.doe` are written to `jo.tsv`, and only the last export is left | `outputs_dot_violated` |
| C50 | `a_b/SAM` and `a/b/SAM` are written to the same file | `outputs_underscore_violated` |
| C51 | the list of hives has `amcache`, so `Amcache.hve` is passed over | `hives_taken_violated` |
| C53 | a hive with more than 1,048,575 items to export ends the spreadsheet export with an error when it comes to the row that does not fit; nothing limits or splits the export | `xlsx_row_limit_violated` |
| C55 | the versions of a key are left out of the JSONL export (`#[serde(skip)]`), although the README says it dumps all the data | `jsonl_versions_violated` |
| C57 | the rows of values have only the name of the key in the column that the heading calls KeyPath | `common_key_path_violated` |
| C57 | data types that are not documented are all exported as 999, so the stored number is lost | `common_type_violated` |
| C58 | FILETIMEs before 1677 or after 2262 overflow 64-bit nanoseconds and are written as another time; FILETIME 0 becomes 2185-07-21 | `times_violated` |
| C59 | `write_key_tsv` and `write_key` of the spreadsheet collect the warning about access flag bits without a name in a copy of the logs that is dropped, so such bits leave no trace | `access_bits_violated` |
| C61 | the TSV export and the spreadsheet take the first part of `get_content()` only and drop the warnings of decoding, so ill-formed text looks like well-formed text | `tsv_ill_formed_violated` |
| C63 | the scan for deleted cells stops at a cell of size 0 and then takes the rest of the bin for the header of the next bin, so a hive with zero padding behind its last cell cannot be opened with recovery | `recovery_only_adds_violated` |
| C64 | `build` never reads the filter stored by `with_filter` of the builder, so all keys are listed | `builder_filter_violated` |
| C65 | `get_parent_key` cuts the path at backslashes, so the parent of a key with a backslash in its name gets a wrong path; for the root key it follows the parent field, which names no key, and returns an error instead of none | `parent_violated` |
| C66 | the dates shown in Python are made from the wrapped instants of C20, so a FILETIME of 0 is shown as a date in 2185 | `python_dates_violated` |
| C67 | `reg_keys()` takes the parser out of the Python object, so afterwards every lookup answers `None`, there are no sub-keys, and a second loop raises an exception | `python_iteration_violated` |
| C68 | `build()` reads file objects from where they stand: a second `build()` finds the logs at their end, skips them as empty and shows the hive without them, or fails on the empty primary file | `builds_again_violated` |
| C69 | `content` drops the decoding warnings, so half a surrogate pair is given as the text `U+FFFD` | `python_text_violated` |
| C71 | `reg_dump -f '\ROOT\A'`, with the path as every export prints it, never matches: the output is empty and the program succeeds | `dump_filter_violated` |
| C72 | the last buffer is written when the `BufWriter` is dropped, where errors are lost: on a full volume an export of less than 8192 bytes succeeds and leaves an empty file | `buffered_violated`, `dump_success_violated` |
| C72 | `reg_dump --recurse` drops the error of every hive (`let _ =`, nothing is printed): a hive that cannot be opened has no output, and the run succeeds | `folder_success_violated` |
| C72 | `reg_compare --recurse` prints the error, leaves an empty report for the hive and succeeds | `compare_success_violated` |
| C73 | `reg_dump` with the output given as the input replaces the hive by its export | `dump_replaces_violated` |
| C73 | `reg_compare` creates the output before it reads the hives: given as one of them, the hive is emptied, nothing is compared | `compare_destroys_violated` |
| C74 | a value of which only the flags of the cell differ (the same name stored with one or two bytes per character) is reported as modified, with two equal rows | `compare_flags_violated` |
| C12 | `get_key` compares whole paths, so a key named `a\b` is returned for the path `a\b`, although there is no key `a` | `get_key_backslash_violated` |
| C12 | with the root in the path, `RT` and `RT\` find the root but `RT\\` (two backslashes) finds nothing; below the root any number of backslashes at the end is ignored | `get_key_root_ends_violated` |
| C12 | two sub-keys named `a`: when the first has no sub-key `b`, `get_key("a\b")` returns the one of the second | `get_key_twins_violated` |
| C44 | `get_sub_key_by_index` and `next_sub_key` do not return for a sub-key list that lists itself | `sub_key_by_index_violated` |
| C75 | a key directly below the root that a log takes away, and everything below it, is recorded under the path of the root but looked up under the empty path: it is never listed | `lost_keys_listed_violated` |
| C76 | former contents of the root key and of its values, and its removed values, are recorded under the path of the root but looked up under the empty path: they are never told | `root_tells_past_violated` |
| C76 | a value changed by one entry and removed by a later one: removed values are appended after the versions have been attached, so its former contents are recorded but never told | `removed_values_versions_violated` |
| C77 | the bins in the last 4096 bytes are not searched (offsets in the file are compared with the size of the bins); a hive with no more than 4096 bytes of bins shows nothing | `deleted_listed_violated` |
| C77 | the analysis of a log entry lists the hive with the deleted keys in it and then strikes every listed key from the deleted keys: what was found in the primary file is gone after the first entry | `deleted_forgotten_violated` |
| C77 | the search comes before the logs are applied: a value whose cell a log entry puts to use again is listed twice, as stored and as deleted | `deleted_stale_violated` |
| C33 | README: `--recovered-only` returns items "that contain a modified or deleted value"; `has_or_is_recovered` of a key looks only at its own state and versions, so an unchanged key with a deleted value has no row | `recovered_only_violated` |
| C79 | only the key itself gets the state of the free cell it was found in; its values keep `Allocated`: in every format they are marked as allocated | `deleted_values_marked_violated` |
| C79 | for the same reason `--recovered-only` leaves out the values of deleted keys | `deleted_values_written_violated` |
| C80 | README: "the data in both outputs is the same"; XLSX cells have a replacement character for every character XML does not allow, so two hives may have different TSV exports and the same spreadsheet | `tables_differ_violated` |
| C81 | paths are printed in reports with a backslash in front; given so to `-f` of `reg_compare`, the report says `Total changes: 0` for any two hives | `compare_filter_violated` |
| C82 | the entries of a log are read up to the first that does not begin with `HvLE`; what follows, damaged or not, is left out without a message | `damaged_entry_violated` |
| C82 | JSONL and common exports have no log: the export of a dirty hive without its logs is the one of the clean hive | `dump_silent_violated` |
| C83 | the recursion over index roots has no limit and no memory of where it was: a hive whose `ri` list lists itself is opened and crashes every listing and export | `self_list_violated`, `dump_self_list_violated` |
| C83 | a log entry telling a size below 40 makes the subtraction in the log reader underflow: opening any hive with that log panics | `tiny_entry_violated` |
| C83 | `new_sequence_number + 1` overflows behind an entry with the number 2^32-1 (panics where overflow is checked) | `last_number_violated` |
| C83 | the common export cuts the first character off an empty path when the file type is unknown, and panics | `dump_common_violated` |
| C62 | the listing starts at the first cell of the first bin, whatever root cell the header names: a hive with its root in the second cell shows only the key in the first, while lookups start at the right one | `root_cell_violated` |
| C84 | a root cell offset below zero in the header is cast to a huge number and added to: every lookup panics (where overflow is checked) in a hive that is opened and listed without a complaint | `root_cell_crash_violated` |
| C84 | the same for the parent offset of a key: `get_parent_key` panics | `parent_crash_violated` |
| C84 | a sub-key list that lists itself crashes looking up any sub-key | `get_key_self_violated` |
| C86 | a clean hive with one key, in whose cell value cells are nested 24 bytes apart, is opened without recovery and exhausts the stack with it | `open_nested_violated` |
| C75 | the first log entry takes the keys found in free space when the hive was opened for keys of the hive and strikes them off; the second reports them as deleted by the log, with no key deleted by either; a third makes them vanish again | `deleted_by_log_violated` |
| C86 | two former root keys in free space and two log entries that change nothing: both are recorded below the empty path, each is attached below the other, and opening recurses until the stack is exhausted | `open_two_roots_violated` |
| C85 | the values of deleted keys found in free space are counted as values that are there | `counted_apart_violated` |
| C75 | when a lost key comes back as it was, the records of what was lost below it are dropped with its own, so sub-keys that are gone for good are not listed | `lost_for_good_violated` |
| C75 | a key that has moved to the place of its former sub-key is taken for that sub-key when lost keys are attached, so what was lost below the sub-key is not listed | `lost_anywhere_violated` |
| C87 | the pretty path of the root is not cut but is the whole path, so looking it up leads to a sub-key of the root with the same name, or nowhere | `pretty_path_root_violated` |
| C87 | Python's `open` takes a path without the root, so the `path` of a key given to it never leads to that key | `python_back` |
| C88 | a deleted key has no sub-keys when all are read at once, but has some by index; those of a key a log has taken away are told to be in use although the log has taken them away, too | `deleted_ways_violated` |
| C88 | a key that says to have more than 1048576 sub-keys has none in listings or when all are read at once, but has those of its list by index | `many_ways_violated` |
| C88 | a sub-key that cannot be read ends `next_sub_key`, so the sub-keys behind it are hidden; all at once they are read | `damaged_ways_violated` |
| C89 | one unreadable leaf of a sub-key list hides the sub-keys named by all its leaves, those that can be read among them | `broken_leaf_violated` |
| C90 | keys which one log entry takes away are put on record while walking a `HashMap` seeded at random (`for … in prior_reg_items`, /repo/src/transaction_log.rs 471) and are never sorted, so listings and exports with recovery come out in another order from run to run | `hash_order_violated`, `dump_order_violated` |
| C91 | a log with an entry numbered 2^32-1 is applied when given once; given twice, opening crashes (checked arithmetic) | `log_twice_violated` |
| C91 | checksum of the hive wrong, two logs: only the newest is to be used, and the code removes the first of the list; with the older log given twice one copy stays and is applied, so another key is listed (release build; a debug build stops at `debug_assert!(len <= 2)`, which is not modelled) | `oldest_twice_violated` |
