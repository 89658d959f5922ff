{"id": "C01", "title": "Header checksum is the XOR-32 of the first 508 bytes and is never 0 or 0xFFFFFFFF", "statement": "For a base block (hive or log header) of at least 512 bytes that parses, the checksum the library computes equals the XOR of the 127 little-endian dwords of bytes 0..508, with 0 replaced by 1 and 0xFFFFFFFF replaced by 0xFFFFFFFE; so it is never 0 or 0xFFFFFFFF, it does not depend on any byte from offset 508 on, and flipping the bits of exactly one dword (when neither result is a substituted value) always changes it.", "quantifier": "every byte buffer of length at least 512", "why_tests_cant": "The input space is 2^4064 headers; tests only check two sample headers and never the two substituted values.", "anchors": ["src/base_block.rs:BaseBlockBase::calculate_checksum", "src/base_block.rs:BaseBlockBase::from_bytes"]}
{"id": "C02", "title": "Header rewrite after log replay is self-consistent and touches only sequence numbers and checksum", "statement": "After logs have been applied with last sequence number s, the first 4096 bytes of the buffer differ from before only in bytes 4..12 and 508..512; re-parsing them yields primary and secondary sequence number both equal to s, a stored checksum equal to the computed checksum, and every other header field unchanged.", "quantifier": "every parseable hive buffer and every 32-bit sequence number", "why_tests_cant": "A round-trip over all headers; tests look at one or two fixed hives and never compare the untouched fields.", "anchors": ["src/parser.rs:Parser::update_header_after_transaction_logs", "src/parser.rs:Parser::check_base_block", "src/base_block.rs:BaseBlock"]}
{"id": "C03", "title": "Replaying a log entry changes exactly the bytes its dirty pages cover", "statement": "When a log entry is applied, every byte of the hive buffer covered by one of its dirty pages takes the value of the last page covering it, every other byte keeps its old value, and the buffer never shrinks; if a page does not fit, an error is reported instead of a write outside the page range.", "quantifier": "every buffer, every entry, every list of (possibly overlapping) dirty pages", "why_tests_cant": "Overlap, ordering and boundary cases are unbounded in number; the tests replay two real logs and compare a digest.", "anchors": ["src/transaction_log.rs:TransactionLog::update_parser", "src/transaction_log.rs:LogEntry::from_bytes_internal"]}
{"id": "C04", "title": "Only a contiguous run of valid, fresh entries of a log is applied", "statement": "Within one log, the entries applied are exactly: after dropping entries older than the hive's secondary sequence number, the longest run of entries each with valid hashes, bin size a multiple of 4096 and sequence number one more than the previous applied entry (the first is unconstrained); nothing after the first violation is applied, and the number reported is that of the last applied entry.", "quantifier": "every log (any list of entries) and every starting header", "why_tests_cant": "The decision depends on the whole history of entries; the tests contain only intact logs so the stop conditions never fire.", "anchors": ["src/transaction_log.rs:TransactionLog::update_parser", "src/transaction_log.rs:LogEntry::is_valid_hive_bin_data_size"]}
{"id": "C05", "title": "The order in which transaction logs are supplied does not matter", "statement": "Passing the same set of logs (with distinct primary sequence numbers) to the parser builder in any order yields the same sequence of logs to replay, sorted by primary sequence number, and nothing is lost or duplicated.", "quantifier": "every list of logs and every permutation of it", "why_tests_cant": "All permutations of all lists cannot be enumerated; tests try two logs in two orders.", "anchors": ["src/transaction_log.rs:TransactionLog::parse"]}
{"id": "C06", "title": "An unreadable transaction log never prevents the others from being used", "statement": "For any list of log contents, the logs replayed are exactly those that parse; each one that is empty or does not parse adds one warning and is skipped; the call never fails because of log contents.", "quantifier": "every list of byte strings", "why_tests_cant": "Needs all malformed logs; tests use a handful of good files.", "anchors": ["src/transaction_log.rs:TransactionLog::parse", "src/transaction_log.rs:TransactionLog::from_bytes"]}
{"id": "C07", "title": "The header sequence number after replay is that of the last applied entry over all logs", "statement": "If at least one entry of the supplied logs is applied, then after parsing the hive header carries the sequence number of the last entry applied in the whole run, and an entry from a later log is applied only if it continues that sequence; if no entry is applied the header is left as it was.", "quantifier": "every list of logs and every hive header", "why_tests_cant": "Interaction between several logs; no test has a second log that contributes nothing.", "anchors": ["src/parser.rs:Parser::apply_transaction_logs", "src/transaction_log.rs:TransactionLog::update_parser"]}
{"id": "C08", "title": "Pre-order iteration terminates on every input and never yields the same cell twice", "statement": "For any hive bytes, including sub-key lists that point back to ancestors or to themselves, iterating with the default iterator ends after finitely many keys and no two allocated keys it yields have the same file offset.", "quantifier": "every hive: every finite graph of key cells with arbitrary sub-key references", "why_tests_cant": "Termination on all cyclic graphs is not testable; one unit test checks the offset set on a hand-made node.", "anchors": ["src/parser.rs:Parser::next_key_preorder", "src/parser.rs:ParserIteratorContext::push_check_stack_to_traverse", "src/parser.rs:ParserIterator"]}
{"id": "C09", "title": "Default iteration is a depth-first pre-order walk", "statement": "On a hive whose key cells form a tree, the default iterator yields every reachable key exactly once, a key before all its descendants, the subtree of a sibling completely before that of the next sibling, and siblings in the order of the sub-key list; deleted keys recorded below a key come after that key.", "quantifier": "every finite key tree with at most 1,048,576 sub-keys per key (the parser's own limit), and every recovery state whose attachment ends (C42)", "why_tests_cant": "Order over all trees; tests compare one digest of the paths of one hive.", "anchors": ["src/parser.rs:Parser::next_key_preorder", "src/parser.rs:ParserIterator"]}
{"id": "C10", "title": "Post-order iteration yields every key once, after all its sub-keys", "statement": "On a hive whose key cells form a tree, post-order iteration yields the same set of keys as the default iteration, each exactly once, and each after all its descendants.", "quantifier": "every finite key tree, with and without recovered deleted keys", "why_tests_cant": "Order and counting over all trees; tests have only one tree without deleted keys.", "anchors": ["src/parser.rs:Parser::next_key_postorder", "src/parser.rs:ParserIterator"]}
{"id": "C11", "title": "A filter returns exactly the keys whose path matches it", "statement": "With a filter of n segments (literal segments compared case-insensitively, regular-expression segments by the regex engine), a key at depth d below the root is reported as an exact match iff its path has exactly n segments, all matching in order; keys deeper than a match are returned iff child keys were requested; keys on the way to a match are traversed but reported only if ancestors were requested.", "quantifier": "every filter and every key path", "why_tests_cant": "Unbounded number of paths and filters; tests use half a dozen literals.", "anchors": ["src/filter.rs:RegQuery::check_key_match", "src/filter.rs:Filter::check_cell", "src/cell_key_node.rs:CellKeyNode::read_sub_keys_internal"]}
{"id": "C12", "title": "Looking a key up by path finds it iff it is in the tree", "statement": "get_key(path) returns the key reached from the root by following, segment by segment, the first child whose name equals the segment case-insensitively; it returns None iff there is no such chain; a leading backslash is ignored.", "quantifier": "every key tree and every path", "why_tests_cant": "All trees and paths; tests probe a few paths in one hive.", "anchors": ["src/parser.rs:Parser::get_key", "src/cell_key_node.rs:CellKeyNode::get_sub_key_by_path", "src/filter.rs:FilterBuilder::add_key_path"]}
{"id": "C13", "title": "Key cells decode exactly and stay inside their cell", "statement": "Every key cell laid out as documented (size, nk, fixed fields, name, slack) decodes to exactly the stored field values with path parent\\name, and the bytes after name up to the absolute cell size are reported as slack; a cell whose absolute size is below 72 or larger than the available bytes, or with a wrong signature or truncated name, is rejected and never read past the end.", "quantifier": "every field assignment, every name and every slack length; every malformed prefix", "why_tests_cant": "80 bytes of fields plus arbitrary names cannot be enumerated.", "anchors": ["src/cell_key_node.rs:CellKeyNode::from_bytes", "src/cell_key_node.rs:CellKeyNode::check_size"]}
{"id": "C14", "title": "Value cells decode exactly and stay inside their cell", "statement": "Every value cell laid out as documented decodes to exactly the stored name, data size, data offset, data type and flags, the bytes after the name up to the absolute cell size are reported as slack, and a cell with an absolute size below 24 or beyond the available bytes is rejected.", "quantifier": "every field assignment, every name and every slack length", "why_tests_cant": "Input space unbounded.", "anchors": ["src/cell_key_value.rs:CellKeyValue::from_bytes"]}
{"id": "C15", "title": "Value data is exactly what is stored: resident, in one cell, or in big-data segments", "statement": "The raw bytes reported for a value are: the first (size mod 2^31) bytes of the data-offset field when the resident bit is set (at most 4); otherwise the first size bytes following the 4-byte header of the cell at data offset, when not stored as big data; for big data, the concatenation of segments of 16344 bytes each from the segment list, cut to the stored size.", "quantifier": "every value, every data size and every data content", "why_tests_cant": "All sizes around and beyond the 16344 threshold and all contents.", "anchors": ["src/cell_key_value.rs:CellKeyValue::read_value_bytes_direct", "src/cell_big_data.rs:CellBigData::get_big_data_bytes"]}
{"id": "C16", "title": "Sub-key lists decode to the stored offsets in order, whatever the list form", "statement": "A leaf list (lf, lh, li) holding n entries decodes to the n stored cell offsets, in order, each shifted by the bin start; an index root (ri) decodes to the concatenation of the lists it points to, in order; a truncated list or an unknown signature is rejected.", "quantifier": "every list of offsets, every nesting of index roots", "why_tests_cant": "Unbounded lists and nesting.", "anchors": ["src/sub_key_list_lf.rs", "src/sub_key_list_lh.rs", "src/sub_key_list_li.rs", "src/sub_key_list_ri.rs", "src/cell_key_node.rs:CellKeyNode::parse_sub_key_list"]}
{"id": "C17", "title": "Typed value content never fails and only depends on type and bytes", "statement": "get_content on any value returns a decoded value without error or panic: numeric types decode to the little/big-endian number of their first bytes, string types to decoded text, binary types to the raw bytes; when there are too few bytes for a numeric type the raw bytes are returned and a warning is logged; absent data gives None.", "quantifier": "every data type and every byte string", "why_tests_cant": "All types times all byte strings.", "anchors": ["src/cell_key_value.rs:CellKeyValueDataTypes::get_value_content", "src/cell_key_value.rs:CellKeyValue::get_content"]}
{"id": "C18", "title": "UTF-16 strings round-trip and stop at the first NUL", "statement": "Decoding the UTF-16LE encoding of any text without NUL, optionally followed by a NUL and arbitrary bytes, gives back that text without warnings; unpaired surrogates become U+FFFD with a warning; an odd trailing byte is ignored.", "quantifier": "every Unicode text", "why_tests_cant": "All texts, in particular all surrogate combinations.", "anchors": ["src/util.rs:from_utf16_le_string", "src/util.rs:from_utf16_le_string_single"]}
{"id": "C19", "title": "REG_MULTI_SZ decodes to the stored list of strings", "statement": "Decoding the standard encoding of a list of non-empty strings (each UTF-16LE and NUL terminated, followed by a final NUL) gives back that list.", "quantifier": "every list of non-empty strings without NUL", "why_tests_cant": "All lists of texts; tests only use ASCII letters.", "anchors": ["src/util.rs:from_utf16_le_strings"]}
{"id": "C20", "title": "FILETIME timestamps convert to the instant they denote", "statement": "A 64-bit FILETIME is converted to the instant that many 100 ns ticks after 1601-01-01, and conversion preserves order.", "quantifier": "every 64-bit FILETIME", "why_tests_cant": "2^64 inputs; tests use three.", "anchors": ["src/util.rs:get_date_time_from_filetime"]}
{"id": "C21", "title": "ROT13 decoding is an involution that keeps length, case and non-letters", "statement": "Applying the ROT13 decoder twice gives back the text; it maps ASCII letters by 13 positions within their case and keeps every other character.", "quantifier": "every text", "why_tests_cant": "All texts.", "anchors": ["src/util.rs:decode_rot13"]}
{"id": "C22", "title": "Hex output determines the bytes", "statement": "The space-separated upper-case hex rendering of a byte string has the form HH HH ... HH without leading or trailing blanks and two different byte strings never render the same.", "quantifier": "every byte string", "why_tests_cant": "Injectivity over all byte strings.", "anchors": ["src/util.rs:to_hex_string"]}
{"id": "C23", "title": "Escaped export fields can be read back", "statement": "A text escaped for TSV/CSV export is read back by an RFC 4180 field reader to the same text, contains no bare separator, quote or line break outside quotes, and is unchanged when it has no special character.", "quantifier": "every text", "why_tests_cant": "All texts with arbitrary quoting.", "anchors": ["src/util.rs:escape_string"]}
{"id": "C24", "title": "LZNT1 decompression inverts LZNT1 encoding and bounds back references", "statement": "For every LZNT1 stream of raw and compressed chunks, decompression gives the concatenation of the chunks' contents; the displacement/length split of a back reference follows the output position; decompression of arbitrary bytes either succeeds or reports an error.", "quantifier": "every stream of chunks, every chunk content, every input bytes", "why_tests_cant": "All token sequences; one test vector in the repo.", "anchors": ["src/util.rs:decode_lznt1", "src/util.rs:calc_compression_bits"]}
{"id": "C25", "title": "Root prefix stripping is exact", "statement": "For a path of the form \\root\\rest the stripped path is rest, for \\root or a path without leading backslash nothing is stripped, and the reported offset never exceeds the length of the path.", "quantifier": "every path", "why_tests_cant": "All paths incl. non-ASCII.", "anchors": ["src/util.rs:get_root_path_offset", "src/state.rs:State::get_root_path_offset"]}
{"id": "C26", "title": "Scanning for deleted cells terminates and stays in the file", "statement": "The scan for free key and value cells ends for every buffer, either with an error or after visiting strictly increasing offsets; every item it reports lies inside the buffer and its size field is positive (free), or it was found in slack; cells inside each bin are visited consecutively without gaps.", "quantifier": "every hive buffer", "why_tests_cant": "Arbitrary corrupted bytes.", "anchors": ["src/parser_recover_deleted.rs:ParserRecoverDeleted::find_free_keys_and_values", "src/parser_recover_deleted.rs:ParserRecoverDeleted::find_unused_cells_in_hbin"]}
{"id": "C27", "title": "Deleted-item bookkeeping returns exactly what was recorded", "statement": "Looking up deleted keys (values) under a path returns exactly the items added for that path and not removed since, in the order added; adding or removing under one path never affects another.", "quantifier": "every sequence of add and remove operations", "why_tests_cant": "All operation histories.", "anchors": ["src/state.rs:ModifiedDeletedKeyMap", "src/state.rs:DeletedValueMap", "src/state.rs:ModifiedValueMap"]}
{"id": "C28", "title": "Reading a ring of security cells returns each descriptor once and terminates", "statement": "Starting from a security cell, the descriptors returned are those of the cells visited by following the forward links until the start is reached again, each once, in order; the walk terminates for every buffer.", "quantifier": "every buffer and every start offset", "why_tests_cant": "All link graphs.", "anchors": ["src/cell_key_security.rs:read_cell_key_security", "src/cell_key_security.rs:CellKeySecurity::from_bytes"]}
{"id": "C29", "title": "Log hash validation accepts exactly entries whose two stored hashes match and detects local corruption", "statement": "An entry is considered valid iff its stored hashes equal the Marvin32 hashes of bytes 40..size and 0..32; changing any bytes inside one aligned 4-byte word of the hashed header or body makes the entry invalid.", "quantifier": "every entry and every single-word corruption", "why_tests_cant": "2^32 corruptions of every word of every entry.", "anchors": ["src/marvin32.rs:marvin32", "src/transaction_log.rs:LogEntry::calc_hash1", "src/transaction_log.rs:LogEntry::calc_hash2"]}
{"id": "C30", "title": "Comparing two hives reports each difference exactly once and nothing else", "statement": "The comparison of two hives classifies every key (by path) and value (by path and name) as added, deleted, modified or unchanged: reported as deleted iff only in the base, added iff only in the comparison, modified iff in both with different hash; comparing a hive with itself reports nothing; the reported total is the number of reported items.", "quantifier": "every pair of key/value listings with unique (path, name)", "why_tests_cant": "All pairs of hives; the tests only cover the section printers.", "anchors": ["bin/reg_compare.rs:reg_compare"]}
{"id": "C31", "title": "Unified-diff hunks have consistent line numbers", "statement": "In --diff output the hunk headers account for the lines printed: each hunk's old/new start is one plus the number of old/new lines printed before, its counts equal the -/+ lines that follow, and no empty hunk is printed.", "quantifier": "every set of differences", "why_tests_cant": "All combinations of section sizes.", "anchors": ["bin/reg_compare.rs:write_diff", "bin/reg_compare.rs:write_diff_section"]}
{"id": "C32", "title": "Common-format totals equal the rows written", "statement": "In the common export the eight totals equal the numbers of key and value rows with the matching A/U/D/M flag, where versions of keys and values are included.", "quantifier": "every list of keys with versions, values and value versions", "why_tests_cant": "All hives.", "anchors": ["bin/reg_dump/common_writer.rs:WriteCommon::write"]}
{"id": "C33", "title": "Table exports number rows 1..n and recovered-only keeps exactly the recovered items", "statement": "TSV rows carry index 1,2,3,… without gaps; with --recovered-only the TSV and XLSX exports have exactly the rows of the items that are modified or deleted, or that contain a modified or deleted value, in the order of the full export.", "quantifier": "every list of keys with versions, values and value versions", "why_tests_cant": "All hives and states.", "anchors": ["bin/reg_dump/tsv_writer.rs:WriteTsv::write_key_tsv", "bin/reg_dump/tsv_writer.rs:WriteTsv::write_value_tsv", "bin/reg_dump/xlsx_writer.rs:WriteXlsx", "src/cell_key_node.rs:CellKeyNode::has_or_is_recovered", "src/cell_key_value.rs:CellKeyValue::has_or_is_recovered", "README.md"]}
{"id": "C34", "title": "Flag decoding keeps exactly the known bits and warns iff some bit is unknown", "statement": "Decoding key-node, access and value flags yields the intersection of the stored bits with the documented flags, and adds one warning iff some stored bit is not documented; unknown enum values map to Unknown with one warning.", "quantifier": "every 8/16/32-bit flag word", "why_tests_cant": "Whole words, all flag types.", "anchors": ["src/macros.rs:impl_flags_from_bits", "src/macros.rs:impl_enum_from_value", "src/cell_key_node.rs:KeyNodeFlags", "src/cell_key_node.rs:AccessFlags"]}
{"id": "C35", "title": "Log entries parse exactly as laid out and are independent of trailing bytes", "statement": "A log consisting of a header and well-formed entries parses to exactly those entries with their pages and offsets, in order; parsing stops at the first malformed entry and keeps the ones before it.", "quantifier": "every list of entries, every trailing bytes", "why_tests_cant": "Unbounded number of entries and pages.", "anchors": ["src/transaction_log.rs:LogEntry::from_bytes", "src/transaction_log.rs:TransactionLog::from_bytes"]}
{"id": "C36", "title": "Value lookup by name is case-insensitive and returns the first match", "statement": "get_value(name) returns the first value of the key whose name equals the argument ignoring ASCII case, and None iff there is none; the empty name finds the default value.", "quantifier": "every value list and name", "why_tests_cant": "All lists.", "anchors": ["src/cell_key_node.rs:CellKeyNode::get_value"]}
{"id": "C37", "title": "Log analysis reports an item as deleted or modified iff it disappeared or changed between log states", "statement": "With recovery enabled, after each replayed entry a key/value present before and absent after is recorded as deleted with the entry's sequence number; one present in both with different content has its previous version recorded as modified; unchanged items are recorded nowhere.", "quantifier": "every pair of item maps before/after", "why_tests_cant": "All pairs of states.", "anchors": ["src/transaction_log.rs:TransactionAnalyzer::get_latest_reg_items", "src/transaction_log.rs:TransactionAnalyzer::handle_new_item"]}
{"id": "C38", "title": "Choosing log files for a primary is by name", "statement": "Unless logs are skipped, the logs used for a primary file are exactly the files name.LOG1 and name.LOG2 next to it, whatever the case of their names, the first before the second; a comma separated list of files, with white space and quotes around the names, is taken apart into the primary file and the logs.", "quantifier": "every folder content, on file systems where case matters and where it does not; every list of file names", "why_tests_cant": "All directory contents.", "anchors": ["src/cli_util.rs:get_log_files", "src/cli_util.rs:get_log_name", "src/cli_util.rs:parse_paths"]}
{"id": "C39", "title": "Values of a key are read in order and a damaged value never hides earlier ones", "statement": "For a key with n values the values reported are the values at the n offsets of its value list in order; if some entry is unreadable, the values before it are still reported and a warning is logged.", "quantifier": "every buffer and every value list", "why_tests_cant": "All damaged lists.", "anchors": ["src/cell_key_node.rs:CellKeyNode::read_values", "src/cell_key_node.rs:CellKeyNode::parse_key_values"]}
{"id": "C40", "title": "ASCII key and value names decode byte for byte", "statement": "A compressed (ASCII) name decodes to exactly one character per byte with the same code point (Latin-1), so decoding is injective and never produces warnings; a UTF-16 name is decoded as UTF-16.", "quantifier": "every byte string", "why_tests_cant": "All byte strings.", "anchors": ["src/util.rs:from_ascii", "src/util.rs:string_from_bytes"]}
{"id": "C41", "title": "Opening never applies logs to a clean hive and always starts from a header that checks out", "statement": "When the hive's sequence numbers agree and its checksum is right no log is applied; when the checksum is wrong the header of the newest usable log is used or, without usable logs, the hive is opened as is with a warning; the decision depends only on those facts.", "quantifier": "every combination of header state and log headers", "why_tests_cant": "All combinations of headers and logs.", "anchors": ["src/parser.rs:Parser::prepare_transaction_logs", "src/parser.rs:Parser::handle_bad_checksum", "src/parser.rs:Parser::apply_transaction_logs"]}
{"id": "C42", "title": "Keys and values recorded as deleted or modified show up below their parent when iterating", "statement": "After opening with recovery enabled, every key recorded as deleted below path p is attached to the key read at path p (and likewise deleted values, by name, and earlier versions of keys and values, the newest first), whatever p is, including the root key; attaching terminates.", "quantifier": "every recovery state and every key path", "why_tests_cant": "All recovery states; tests only count totals for one hive.", "anchors": ["src/cell_key_node.rs:CellKeyNode::update_modified_lists", "src/transaction_log.rs:TransactionAnalyzer::add_full_key_to_list", "src/state.rs:State"]}
{"id": "C43", "title": "get_sub_key finds a direct child by name", "statement": "For every key (including the root) get_sub_key(key, name) returns the first direct sub-key whose name equals name ignoring ASCII case, and None iff there is none; it never panics.", "quantifier": "every key, every child list and every name", "why_tests_cant": "All trees and names; tests only look below a nested key.", "anchors": ["src/parser.rs:Parser::get_sub_key", "src/filter.rs:RegQuery::check_key_match", "src/state.rs:State::get_root_path_offset"]}
{"id": "C44", "title": "Sub-key access by index agrees with the sub-key list", "statement": "get_sub_key_by_index(i) returns the key cell at the i-th listed offset, None iff i is past the end or that cell is unreadable; repeatedly calling next_sub_key after resetting yields the readable prefix of the listed sub-keys in order.", "quantifier": "every key and every index", "why_tests_cant": "All lists.", "anchors": ["src/cell_key_node.rs:CellKeyNode::get_sub_key_by_index", "src/cell_key_node.rs:CellKeyNode::next_sub_key"]}
{"id": "C45", "title": "Incomplete value data is never reported silently", "statement": "Whenever the data returned for a value has fewer bytes than the cell declares, a warning is attached to the value.", "quantifier": "every value cell and every buffer, including truncated and damaged ones", "why_tests_cant": "All damaged layouts; tests use intact hives.", "anchors": ["src/cell_key_value.rs:CellKeyValue::read_value_bytes", "src/cell_big_data.rs:CellBigData"]}
{"id": "C46", "title": "Reported data offsets locate the data", "statement": "The absolute data offsets reported for a value point at the bytes of that value in the file: reading the file there gives the data.", "quantifier": "every value and every storage form (inline, plain cell, big data)", "why_tests_cant": "All layouts; the tests never read back through the offsets.", "anchors": ["src/cell_key_value.rs:CellKeyValue::read_value_bytes_direct", "src/cell_big_data.rs:CellBigData::get_big_data_bytes"]}
{"id": "C47", "title": "decode_content never panics", "statement": "decode_content with any decode format and any offset returns a value or an error for every content; for the UTF-16 and ROT13 formats it returns exactly the decoded text.", "quantifier": "every content, every format, every offset", "why_tests_cant": "All byte strings and offsets.", "anchors": ["src/cell_value.rs:CellValue::decode_content", "src/cell_value.rs:DecodeFormat"]}
{"id": "C48", "title": "Post-order iteration with a filter returns exactly the wanted keys", "statement": "Iterating in post-order with a filter returns exactly the keys the filter asks for (the keys matching it, with the children option the keys below them, and with the ancestors option the keys on the way), each after everything returned below it.", "quantifier": "every key tree and every filter", "why_tests_cant": "All trees and filters; tests only use filters with the pre-order iterator.", "anchors": ["src/parser.rs:Parser::next_key_postorder", "src/filter.rs:Filter::check_cell"]}
{"id": "C49", "title": "Every free key and value cell of a well-formed hive is recovered", "statement": "With recovery on, for a hive whose bins data is a sequence of bins filled with cells, opening succeeds and every free cell that holds a readable key or value is among the recovered items.", "quantifier": "every well-formed hive, any number of bins and cells", "why_tests_cant": "All layouts of bins and cells; tests only count the items of two sample hives.", "anchors": ["src/parser.rs:Parser::find_free_keys_and_values", "src/parser_recover_deleted.rs:ParserRecoverDeleted::find_unused_cells_in_hbin"]}
{"id": "C50", "title": "Recursing over a folder gives every hive its own output file", "statement": "After exporting a folder tree recursively, the export of every hive that could be exported is in the output folder: no export replaces another one.", "quantifier": "every tree of folders and files, every output format", "why_tests_cant": "All trees of names; the tests never recurse over a folder.", "anchors": ["bin/reg_dump/main.rs:process_folder", "bin/reg_dump/main.rs:get_outpath", "bin/reg_compare.rs:get_outpath"]}
{"id": "C51", "title": "Recursing over a folder takes exactly the standard hives, each with its logs", "statement": "Exporting a folder recursively takes exactly the non-empty files that have the name of a standard hive (SAM, SECURITY, SOFTWARE, SYSTEM, DEFAULT, Amcache.hve, NTUSER.DAT, UsrClass.dat, whatever the case), each once and with the logs beside it; comparing two folders takes exactly those that are in both.", "quantifier": "every tree of folders and files", "why_tests_cant": "All trees of names; the tests never recurse over a folder.", "anchors": ["bin/reg_dump/main.rs:process_folder", "bin/reg_compare.rs:process_folders", "src/cli_util.rs:file_has_size"]}
{"id": "C52", "title": "The TSV export can be read back", "statement": "A reader of tables with tabs between the fields and quotes around fields where needed gets back from a TSV export the thirteen column names and then one record per exported item, with exactly the path, value name, data, status, sequence numbers and logs of that item, whatever tabs, quotes and line feeds the names and data contain.", "quantifier": "every listing of keys, values and versions; all names and data", "why_tests_cant": "All texts; the tests export no key or value whose name has a tab, a quote or a line feed.", "anchors": ["bin/reg_dump/tsv_writer.rs:WriteTsv::write_key_tsv", "bin/reg_dump/tsv_writer.rs:WriteTsv::write_value_tsv", "src/util.rs:escape_string"]}
{"id": "C53", "title": "The spreadsheet shows every item of the export, with long texts complete in the overflow sheet", "statement": "Exporting as a spreadsheet succeeds and gives one row per exported item, in the order of and with the same fields as the TSV export, under the column names; a text too long for a cell is complete in the row of the overflow sheet that its cell names and links; the sheet with the logs has one row per log.", "quantifier": "every listing of keys, values and versions, texts of any length, any number of logs", "why_tests_cant": "All sizes of listings and texts; the tests check only that one sample file can be written.", "anchors": ["bin/reg_dump/xlsx_writer.rs:WriteXlsx::write", "bin/reg_dump/xlsx_writer.rs:WriteXlsx::write_key", "bin/reg_dump/xlsx_writer.rs:WriteXlsx::write_value", "bin/reg_dump/xlsx_writer.rs:WriteXlsx::write_string_handle_overflow"]}
{"id": "C54", "title": "The spreadsheet has only characters and lengths the format allows", "statement": "Whatever the names and data of a hive, no cell of the exported spreadsheet has a character that XML 1.0 does not allow or more than 32767 characters; characters that are allowed are unchanged and each other one becomes one replacement character.", "quantifier": "every text and every listing", "why_tests_cant": "All characters at all positions.", "anchors": ["bin/reg_dump/xlsx_writer.rs:sanitize_for_xml_1_0", "bin/reg_dump/xlsx_writer.rs:sanitize_cell", "bin/reg_dump/xlsx_writer.rs:WriteXlsx::safe_split_at"]}
{"id": "C55", "title": "The JSONL export can be read back", "statement": "A JSON reader gets back from each line of a JSONL export one key with its path, name, flags, times, all its values with their data and its logs, in the order of the listing: the file has exactly one line per exported key, whatever characters the names and data contain, and nothing of the hive is left out.", "quantifier": "every listing of keys, values and versions; all names and data; with and without full field information", "why_tests_cant": "All texts, including line feeds, quotes and control characters in names; the tests compare one sample file.", "anchors": ["bin/reg_dump/json_writer.rs:WriteJson::write", "src/cell_key_node.rs:CellKeyNode (Serialize)", "src/cell_key_value.rs:CellKeyValue (Serialize)"]}
{"id": "C56", "title": "Full field information names the place of each field", "statement": "With full field information, the place given with each field of a key or value, counted from the place of the cell, is where the bytes of that field are in the file: those bytes, read as the field is documented, are the value given.", "quantifier": "every file, every key and value that an iteration yields, every field", "why_tests_cant": "All files; the tests compare the places of a few sample cells.", "anchors": ["src/cell_key_node.rs:CellKeyNodeDetail", "src/cell_key_value.rs:CellKeyValueDetail", "src/field_offset_len.rs:FieldFull"]}
{"id": "C57", "title": "The common export says what its heading documents", "statement": "After the comment lines of its heading, a common export has one record of eight comma separated fields per key, version of a key, value and version of a value, and these are the fields that the heading documents: kind, flag of the state, offset, path of the key (only the name for unused keys, nothing for unused values), name of the value, number of the data type, data as bytes, time. A reader of comma separated texts gets them back whatever characters names have.", "quantifier": "every listing whose export finishes; all names and data", "why_tests_cant": "All texts and states; the tests write no common export.", "anchors": ["bin/reg_dump/common_writer.rs:WriteCommon::write", "bin/reg_dump/common_writer.rs:WriteCommon::write_key", "bin/reg_dump/common_writer.rs:WriteCommon::write_value"]}
{"id": "C58", "title": "Times are written as the times that are stored", "statement": "The text of a time in the exports is a date and a time of day in UTC that, read by the Gregorian calendar, is exactly the stored FILETIME, in a fixed width of 28 characters for the years up to 9999, and the texts of two times are ordered as the times are.", "quantifier": "All 64-bit FILETIME values up to the year 9999, and all pairs of them.", "why_tests_cant": "Tests check single times; leap years, padding, fractions and overflow need all values.", "anchors": ["src/util.rs:format_date_time", "src/util.rs:get_date_time_from_filetime", "bin/reg_dump/tsv_writer.rs:WriteTsv::write_key_tsv", "bin/reg_dump/xlsx_writer.rs:WriteXlsx::write_key"]}
{"id": "C59", "title": "Flags are named as they are stored", "statement": "Wherever an export shows the flags of a key (its key flags and its access flags) as text, the text names exactly the documented flags whose bits are stored, in a form that can be taken apart again; a stored bit without a name is noted beside it or in the logs of the row.", "quantifier": "All 2^16 key flag fields, all 2^32 access flag fields, all keys, in the TSV, spreadsheet and JSONL exports.", "why_tests_cant": "Tests show a few combinations of flags; that no combination is misnamed or silently dropped needs all of them.", "anchors": ["src/cell_key_node.rs:KeyNodeFlags", "src/cell_key_node.rs:AccessFlags", "src/cell_key_node.rs:CellKeyNode::key_node_flags", "src/cell_key_node.rs:CellKeyNode::access_flags", "src/field_serializers.rs:field_key_node_flag_bits_interpreted", "bin/reg_dump/tsv_writer.rs:WriteTsv::write_key_tsv", "bin/reg_dump/xlsx_writer.rs:WriteXlsx::write_key"]}
{"id": "C60", "title": "The content of a value can be read from its row", "statement": "From the columns with the data and the type of a value in the TSV export, the decoded content can be read back exactly: the bytes, the number with its sign, the text, or the list of texts with whatever characters they have.", "quantifier": "All values, all contents (binary, text, lists of texts, numbers), all characters.", "why_tests_cant": "The space of contents is unbounded; quotes, commas and brackets inside lists of texts are easily confused with the list itself.", "anchors": ["src/cell_value.rs:CellValue::fmt", "src/cell_value.rs:CellValue::get_type", "src/cell_key_value.rs:CellKeyValue::get_content", "bin/reg_dump/tsv_writer.rs:WriteTsv::write_value_tsv"]}
{"id": "C61", "title": "Ill-formed value data is marked in the exports", "statement": "When the data of a value is not what its type says (for a text type: it has unpaired surrogates), the export of the value carries a warning, so that its row differs from that of a value with well-formed data.", "quantifier": "All values of a text type with any bytes.", "why_tests_cant": "Needs all byte sequences; the tests have well-formed texts.", "anchors": ["src/cell_key_value.rs:CellKeyValue::get_content", "src/util.rs:from_utf16_le_string", "bin/reg_dump/tsv_writer.rs:WriteTsv::write_value_tsv", "src/cell_key_value.rs:CellKeyValueForSerialization"]}
{"id": "C62", "title": "Opening a hive with its logs and listing it shows exactly the keys that are stored", "statement": "Opening a hive file with its transaction logs and iterating over it lists exactly the keys of the tree that is stored in the file, each once, parents before their sub-keys; when the file is marked as not up to date, the tree is that of the file with the consecutive entries of the logs written over it, and the header shows the sequence number of the last of these entries.", "quantifier": "Every hive file with any tree of keys, every set of log files in every order; iteration with all options but a filter.", "why_tests_cant": "The tests open some sample files; the claim is about all trees, all entries and all pages at once, from the bytes of the files to the keys.", "anchors": ["src/parser_builder.rs:ParserBuilderFromFile::build", "src/parser.rs:Parser::init", "src/parser.rs:ParserIterator::iter", "src/transaction_log.rs:TransactionLog::parse", "src/transaction_log.rs:TransactionLog::update_parser"]}
{"id": "C63", "title": "Recovering deleted items only adds to what is shown", "statement": "With recovery of deleted items, opening a hive succeeds whenever it does without, and the keys listed that are marked as allocated are exactly those listed without recovery, in the same order; all other listed keys are marked as deleted.", "quantifier": "Every hive file, every set of log files.", "why_tests_cant": "Relates two runs on any file; the tests compare numbers of items for some files.", "anchors": ["src/parser_builder.rs:ParserBuilderFromFile::recover_deleted", "src/parser_recover_deleted.rs:ParserRecoverDeleted", "src/state.rs:State", "src/cell_key_node.rs:CellKeyNode::update_modified_lists"]}
{"id": "C64", "title": "The filter given when a hive is opened is applied", "statement": "When a hive is opened with a filter (`with_filter`), iterating over it lists only the keys that satisfy the filter.", "quantifier": "Every hive, every filter.", "why_tests_cant": "All filters; no test gives a filter to the builder.", "anchors": ["src/parser_builder.rs:ParserBuilder::with_filter", "src/parser_builder.rs:ParserBuilderFromFile::build", "src/parser.rs:ParserIterator"]}
{"id": "C65", "title": "The parent of a key is the key it is listed under", "statement": "Asking for the parent of a key obtained by iteration gives the key under which it is listed, with its place and its full path, so that going up repeatedly leads to the root key; the root key has no parent.", "quantifier": "Every hive with any tree of keys, every listed key, any filter, with and without recovery.", "why_tests_cant": "All trees and all names; the tests ask for the parents of a few keys of a sample file.", "anchors": ["src/parser.rs:Parser::get_parent_key"]}
{"id": "C66", "title": "Python dates are the stored times, rounded to the nearest microsecond", "statement": "The date of a key in Python, read as UTC, is the stored time rounded to the nearest microsecond, ties to the even one; it is a date that exists, exact when the stored time is a whole number of microseconds, and sorting keys by their dates never puts a later key before an earlier one.", "quantifier": "Every 64-bit FILETIME whose year has at most four digits; every pair of such times.", "why_tests_cant": "All times, including ties, carries over seconds, days, months and years; the tests try four.", "anchors": ["pynotatin/src/util.rs:date_to_pyobject", "pynotatin/src/util.rs:nanos_to_micros_round_half_even", "pynotatin/src/py_notatin_key.rs:PyNotatinKey"]}
{"id": "C67", "title": "The Python parser object shows the hive, as often as it is asked", "statement": "Looping over a Python parser gives exactly the keys of the hive in pre-order; looking up paths, in any number and order, gives for each the key of that path, and None only if there is no such key; loops over values, sub-keys and versions give each item once, in order. None of this depends on which loops or lookups came before.", "quantifier": "Every hive, every sequence of calls on the object.", "why_tests_cant": "All hives and all call sequences; the tests use each parser object for one purpose.", "anchors": ["pynotatin/src/py_notatin_parser.rs:PyNotatinParser", "pynotatin/src/py_notatin_key.rs:PyNotatinKey", "pynotatin/src/py_notatin_value.rs:PyNotatinValue"]}
{"id": "C68", "title": "Building twice from one Python builder opens the same hive twice", "statement": "Calling build() a second time on the same builder, with nothing changed in between, opens the same hive with the same logs as the first time.", "quantifier": "Every builder, every primary file and log, given by name or as file objects.", "why_tests_cant": "All combinations of files; the tests build once per builder.", "anchors": ["pynotatin/src/py_notatin_parser.rs:PyNotatinParserBuilder::build", "pynotatin/src/util.rs:FileOrFileLike::to_read_seek"]}
{"id": "C69", "title": "The content of a value in Python tells its data", "statement": "The content of a value in Python is the stored number as an int for the numeric types (the raw bytes if there are too few), the text as a str, the strings as a list, the raw bytes for all other types, and None exactly if there is no data; it never raises; what is given as text is the stored text.", "quantifier": "Every data type and every byte string as data.", "why_tests_cant": "All data of all lengths, well-formed or not; the tests try some values.", "anchors": ["pynotatin/src/py_notatin_value.rs:PyNotatinValue::content", "pynotatin/src/py_notatin_value.rs:PyNotatinValue::prepare_content"]}
{"id": "C70", "title": "From the bytes of the files to the data of the values", "statement": "When a hive is opened (without recovery) from its bytes and its logs, the iteration shows every stored key together with exactly the values stored for it: their names, types and data, in the order of the value list, without warnings; a filtered iteration shows the same for the keys asked for; looking up a key by path and a value by name gives the data of the first value with that name under the first key with that path, or nothing exactly if there is none.", "quantifier": "Every hive file and every list of logs that open; every tree of keys and every assignment of values to them stored in the resulting bytes, resident, in one cell, or in segments; every filter; every path and name.", "why_tests_cant": "The claim is about all files: the layers are tested one at a time on some dozen hives, and only a proof through all layers shows that offsets, lengths, flags and filter states passed between them fit for every hive.", "anchors": ["src/parser_builder.rs:ParserBuilderFromFile::build", "src/parser.rs:Parser::init", "src/parser.rs:Parser::get_key", "src/cell_key_node.rs:CellKeyNode::read", "src/cell_key_node.rs:CellKeyNode::read_values", "src/cell_key_node.rs:CellKeyNode::get_value", "src/cell_key_value.rs:CellKeyValue::from_bytes", "src/cell_key_value.rs:CellKeyValue::read_value_bytes"]}
{"id": "C71", "title": "What reg_dump writes says what the hive holds", "statement": "When reg_dump succeeds on a hive, a reader of the output file finds in it exactly the keys stored in the hive (with its logs applied), in order, each with its path, time and flags, and exactly their values with name, type and content, whichever of the four formats was chosen; with -f exactly the keys at and below the given path.", "quantifier": "Every hive file on the disk with its logs; every stored tree with values; every choice of format and full field info; every filter path; every character in names and data.", "why_tests_cant": "Tests compare whole exports of a few hives with outputs of the program itself; nothing checks that the output means what the hive holds, for all names, types, data, nestings and formats.", "anchors": ["bin/reg_dump/main.rs:main", "bin/reg_dump/main.rs:process_file", "bin/reg_dump/main.rs:reg_dump", "bin/reg_dump/json_writer.rs:WriteJson::write", "bin/reg_dump/tsv_writer.rs:WriteTsv::write", "bin/reg_dump/common_writer.rs:WriteCommon::write", "bin/reg_dump/xlsx_writer.rs:WriteXlsx::write", "src/cli_util.rs:get_log_files"]}
{"id": "C72", "title": "Success of reg_dump or reg_compare means a complete output", "statement": "If reg_dump or reg_compare ends successfully, the output file holds the whole export or report, of every hive asked for; if not all of it could be written, or a hive could not be read, the program ends with an error. In no case does the file hold anything but a beginning of the export.", "quantifier": "Every export of any length, every way it is cut into writes, every amount of space left on the volume; for folders every set of files.", "why_tests_cant": "Tests write to volumes with enough space; which bytes are lost depends on the total length, on how writes meet the buffer and on the space left, and is settled only by an invariant of the buffer.", "anchors": ["bin/reg_dump/json_writer.rs:WriteJson::write", "bin/reg_dump/tsv_writer.rs:WriteTsv::write", "bin/reg_dump/common_writer.rs:WriteCommon::write", "bin/reg_dump/main.rs:process_folder", "bin/reg_compare.rs:reg_compare", "bin/reg_compare.rs:process_folders"]}
{"id": "C73", "title": "The tools leave the hives and logs as they are", "statement": "Running reg_dump or reg_compare, on single files or on folders, whatever the result, changes no file but the outputs; no hive and no transaction log is ever changed; and in a run over a folder every hive is exported as it would be alone.", "quantifier": "Every disk, every choice of input, output and folders (also when outputs go into the folder searched), every order in which files are found.", "why_tests_cant": "Forensic use rests on untouched evidence for every layout of folders and names; tests use separate output folders.", "anchors": ["bin/reg_dump/main.rs:process_file", "bin/reg_dump/main.rs:process_folder", "bin/reg_dump/main.rs:get_outpath", "bin/reg_compare.rs:process_files", "bin/reg_compare.rs:process_folders", "bin/reg_compare.rs:reg_compare", "src/cli_util.rs:get_log_files"]}
{"id": "C74", "title": "What reg_compare writes says what differs between the hives", "statement": "When reg_compare compares two hives, a reader of the report (or of the unified diff) finds exactly the keys stored in only one of the hives (with their logs applied), the keys stored in both with another time, flags or access bits, the values stored in only one, and the values stored in both with another type or data; each in one row (two for what was modified: as it was and as it is) with path, name, time, flags and content from which the stored data can be told; nothing else is reported, and the totals are right.", "quantifier": "Every two hive files on the disk with their logs; every two stored trees with values; both output formats; every name and all data.", "why_tests_cant": "All pairs of hives: a difference may be anywhere in the trees and in any field, and a report may be wrong by leaving something out; the tests compare one pair of hives with a stored report.", "anchors": ["bin/reg_compare.rs:reg_compare", "bin/reg_compare.rs:get_parser", "bin/reg_compare.rs:format_key", "bin/reg_compare.rs:format_value", "bin/reg_compare.rs:write_text_section", "src/cell_key_node.rs:CellKeyNode::hash", "src/cell_key_value.rs:CellKeyValue::hash"]}
{"id": "C75", "title": "What the transaction logs delete is listed by recovery", "statement": "When a dirty hive is opened with its logs and recovery is on, the listing shows, besides exactly the keys stored after all entries have been applied, every key that was stored before some entry and no longer after it: at its place below the keys above it, with the offset, path, name, time, flags and access bits it had when last stored, marked as deleted in a transaction log, and with the number of the entry that took it away. Nothing else is marked as recovered, and nothing is listed twice.", "quantifier": "Every hive file with every set of logs, any number of entries, every sequence of stored trees the entries carry the file through; every key lost in any step.", "why_tests_cant": "All histories of a hive: a key may be lost in any entry, with or without the keys above it, and a later entry may change what is recorded; the tests open a few hives with logs and compare totals.", "anchors": ["src/parser_builder.rs:ParserBuilder::build", "src/parser.rs:Parser::apply_transaction_logs", "src/transaction_log.rs:TransactionLog::update_parser", "src/transaction_log.rs:TransactionAnalyzer::get_latest_reg_items", "src/state.rs:State", "src/cell_key_node.rs:CellKeyNode::update_modified_lists", "src/parser.rs:ParserIterator"]}
{"id": "C76", "title": "What the transaction logs overwrite is told by recovery", "statement": "When a dirty hive is opened with its logs and recovery is on, every listed key tells everything the entries have done to a key with its path: all former contents of the key, the newest first, each with offset, name, time, flags and access bits as it was, marked as changed in a transaction log, with the number of the entry that made it and of the entry that changed it; each present value with its former types and data in the same way; and, in the order of their names, the values removed by an entry, each with type and data as the entry found it, marked as deleted in a transaction log, with its former contents, unless a later entry has put the value there again as it was. Nothing else is told.", "quantifier": "Every hive file with every set of logs, any number of entries, every sequence of stored trees and values the entries carry the file through; every key and every value changed or removed in any step.", "why_tests_cant": "All histories: the same item may be changed by any of the entries, removed by a later one, and the numbers of the entries have to be carried along through entries that do not touch it; the tests compare a few versions of one value.", "anchors": ["src/parser.rs:Parser::apply_transaction_logs", "src/transaction_log.rs:TransactionLog::update_parser", "src/transaction_log.rs:TransactionAnalyzer::get_latest_reg_items", "src/transaction_log.rs:TransactionAnalyzer::handle_new_item", "src/state.rs:State", "src/cell_key_node.rs:CellKeyNode::update_modified_lists", "src/parser.rs:ParserIterator"]}
{"id": "C77", "title": "Deleted keys and values in free space are listed by recovery", "statement": "When a hive is opened with recovery, the listing shows, besides exactly the stored keys with their values, every free cell of the hive bins in which a key or a value can still be read: keys after the root, values behind the values of the root in the order of their names, each once, with offset, name, time, flags and access bits, type and data as far as they are still stored, and marked as found in free or unused space. What is so marked is free or unused in the hive as it was opened, and is listed whether or not logs are applied.", "quantifier": "Every hive file with any bins, any chain of cells in them, any stored tree; clean or dirty, with any logs.", "why_tests_cant": "All arrangements of cells, also nested in the unused space of others; a bin skipped, a cell listed twice or a cell the logs have put to use again show only for certain sizes and layouts, and tests look at a few hives.", "anchors": ["src/parser_builder.rs:ParserBuilder::build", "src/parser.rs:Parser::init", "src/parser.rs:Parser::init_recover_deleted", "src/parser_recover_deleted.rs:ParserRecoverDeleted", "src/cell_key_node.rs:CellKeyNode::update_modified_lists", "src/transaction_log.rs:TransactionAnalyzer::get_latest_reg_items", "src/parser.rs:ParserIterator"]}
{"id": "C78", "title": "reg_dump with recovery tells what was deleted and overwritten", "statement": "reg_dump run with --recover on a dirty hive and its transaction logs writes a file which, read back, tells the history of the hive: the keys and values stored after the logs were applied in order and marked as allocated; every key taken away by a log entry below a key that is still there, as it was last stored and with the number of that entry; every former content of a key or value that is still there, with the numbers of the entries that wrote and that replaced it; every value removed by an entry and not put there again as it was; and nothing else. With --recovered-only the rows are those of the full table that tell of the past.", "quantifier": "Every hive, every history of any number of log entries, every place of the logs, all of TSV, XLSX and JSONL, with or without --recovered-only and --full-field-info.", "why_tests_cant": "All histories; the tests compare totals for two hives, and a content told under the wrong key, state or sequence number or left out for certain orders of entries is not noticed.", "anchors": ["bin/reg_dump/main.rs:main", "bin/reg_dump/tsv_writer.rs:WriteTsv", "bin/reg_dump/xlsx_writer.rs:WriteXlsx", "bin/reg_dump/json_writer.rs:WriteJson", "src/parser_builder.rs:ParserBuilder::build", "src/transaction_log.rs:TransactionAnalyzer", "src/cell_key_node.rs:CellKeyNode::update_modified_lists"]}
{"id": "C79", "title": "reg_dump with recovery writes the deleted keys and values found in free space", "statement": "reg_dump run with --recover on a clean hive writes a file which, read back, has everything the hive stores as without --recover, and beside it one record for each deleted key and value found in the free and unused space of the hive: with the name, time, flags and access flags (keys) or the name, type and content (values) of the cell as far as it is intact, marked as deleted and as free cell or slack, none twice, and none of the free cells that hold a key or value left out; the values of a deleted key follow it and are marked as deleted. With --recovered-only a table has these records and no others.", "quantifier": "Every clean hive, every arrangement of its bins and cells, every tree of keys, all of TSV, XLSX, JSONL and the common format, with or without --recovered-only and --full-field-info.", "why_tests_cant": "All hives and all contents of free cells; the tests count rows of two hives, and a deleted item written with a wrong state, path, offset or content, or left out, is not noticed.", "anchors": ["bin/reg_dump/main.rs:main", "bin/reg_dump/tsv_writer.rs:WriteTsv", "bin/reg_dump/xlsx_writer.rs:WriteXlsx", "bin/reg_dump/json_writer.rs:WriteJson", "bin/reg_dump/common_writer.rs:WriteCommon", "src/parser_recover_deleted.rs:ParserRecoverDeleted", "src/parser.rs:Parser::init_recover_deleted"]}
{"id": "C80", "title": "The TSV and the XLSX export of a hive have the same data", "statement": "The XLSX and the TSV output of reg_dump have the same data: whatever the file, its logs, the filter and the options, when both exports are finished a reader of the text and a reader of the sheet find the same rows, cell by cell, and the same entries of the log.", "quantifier": "Every file on the disk, every set of logs, every filter and every combination of the options.", "why_tests_cant": "The two writers share no code for rows; a cell quoted, shortened, cleaned or ordered in one and not in the other shows only for certain contents, and the tests compare numbers of rows.", "anchors": ["README.md", "bin/reg_dump/tsv_writer.rs:WriteTsv", "bin/reg_dump/xlsx_writer.rs:WriteXlsx", "bin/reg_dump/main.rs:main"]}
{"id": "C81", "title": "reg_compare with a filter says what differs below the path", "statement": "reg_compare run with -f and a key path writes a report (or diff) that tells exactly which keys at and below the path, and which of their values, were deleted, added or modified between the two hives, each once, with its path, time, flags and content; nothing outside of the path is counted.", "quantifier": "Every two hives with any logs, every path of any length in any case of letters, present in both hives, in one or in none.", "why_tests_cant": "All pairs of hives and all paths: the filter is applied to each of the two listings and to the lookup by path separately, and one which lets through less in one of the hives reports differences that are not there; the tests use no filter.", "anchors": ["bin/reg_compare.rs:main", "bin/reg_compare.rs:reg_compare", "src/filter.rs:FilterBuilder::add_key_path", "src/filter.rs:Filter::check_cell", "src/parser.rs:ParserIterator"]}
{"id": "C82", "title": "Nothing of the transaction logs is left out in silence", "statement": "The log of opening a hive (get_parse_logs, and the log in the exports of reg_dump) tells when the hive shown may not be the latest state: a hive that is dirty, damaged in its header or of an unknown kind has a warning, and when logs are given and no warning about logs is reported, every entry of every log has been applied, in the order of the logs. Only a clean and intact hive opened without logs is opened in silence.", "quantifier": "Every hive file, every set of log files with any entries in any state, with and without recovery.", "why_tests_cant": "All contents of hive and logs: an entry can be passed over for its number, size, hashes, place or for damage before it, and a missing warning shows only for the combination at hand; the tests compare the warnings of three hives.", "anchors": ["src/parser.rs:Parser::get_parse_logs", "src/parser.rs:Parser::check_base_block", "src/parser.rs:Parser::apply_transaction_logs", "src/parser.rs:Parser::prepare_transaction_logs", "src/transaction_log.rs:TransactionLog::parse", "src/transaction_log.rs:TransactionLog::update_parser", "src/parser_builder.rs:ParserBuilder::build", "src/log.rs:Logs", "bin/reg_dump/tsv_writer.rs:WriteTsv", "bin/reg_dump/json_writer.rs:WriteJson"]}
{"id": "C83", "title": "No file makes the library or reg_dump crash or hang", "statement": "Whatever bytes the hive and its logs consist of, opening a hive ends with a parser or an error, iterating over an opened hive, with or without a filter, ends and lists no key twice, and reg_dump ends with an output or an error; none of them panics, overflows the stack or runs forever.", "quantifier": "Every content of the hive file and the log files, every filter and every option, without recovery.", "why_tests_cant": "All byte strings: a crash or an endless loop needs a particular combination of offsets, sizes and counts, such as a list that leads back to itself, which no set of sample hives contains; the tests read well-formed hives and a handful of damaged ones.", "anchors": ["src/parser_builder.rs:ParserBuilder::build", "src/parser.rs:Parser::init", "src/parser.rs:Parser::init_root", "src/parser.rs:Parser::next_key_preorder", "src/parser.rs:ParserIterator", "src/transaction_log.rs:TransactionLog::parse", "src/transaction_log.rs:TransactionLog::update_parser", "src/cell_key_node.rs:CellKeyNode::read_sub_keys_internal", "src/cell_key_node.rs:CellKeyNode::parse_sub_key_list", "bin/reg_dump/main.rs:reg_dump", "bin/reg_dump/xlsx_writer.rs:WriteXlsx", "bin/reg_dump/common_writer.rs:WriteCommon"]}
{"id": "C84", "title": "Looking up keys never crashes, whatever the file and the path", "statement": "Whatever bytes the hive consists of, looking up a key by any path ends with the key or with the answer that there is none; and from any key obtained by lookup, iteration or from another key, reading its sub-keys by index, one after the other, all at once or by a path, and reading its parent, end without a panic or a stack overflow.", "quantifier": "Every content of the hive file and of its logs, every path, with or without the root in it, every way to come from one key to the next; without recovery.", "why_tests_cant": "All byte strings, all paths and all sequences of calls; the tests look up some paths in well-formed hives.", "anchors": ["src/parser.rs:Parser::get_key", "src/parser.rs:Parser::get_root_key", "src/parser.rs:Parser::get_parent_key", "src/cell_key_node.rs:CellKeyNode::get_sub_key_by_path", "src/cell_key_node.rs:CellKeyNode::get_sub_key_by_index", "src/cell_key_node.rs:CellKeyNode::next_sub_key", "src/cell_key_node.rs:CellKeyNode::read_sub_keys", "src/cell_key_node.rs:CellKeyNode::get_sub_key_internal"]}
{"id": "C85", "title": "Counting counts what is there", "statement": "Counting all keys and values of an opened hive gives the number of keys stored in it and the number of their values, with a filter those of the keys asked for; with recovery the deleted keys and values found are counted in addition, and, where deleted ones are counted apart, as deleted.", "quantifier": "Every hive, every tree of keys and values, every filter, with and without recovery.", "why_tests_cant": "The tests compare the counts of a few sample hives with numbers written into the tests; the claim relates the counts to the contents of every file.", "anchors": ["src/parser.rs:Parser::count_all_keys_and_values", "src/parser.rs:Parser::_count_all_keys_and_values_with_modified", "src/parser.rs:ParserIterator::iter"]}
{"id": "C86", "title": "Recovery never crashes or hangs, whatever the file", "statement": "With recovery of deleted keys and values on, whatever bytes the hive consists of, opening it ends, with a hive or an error, listing it with any filter ends without an error, looking up any path or the relatives of any key obtained, recovered ones among them, ends with an answer, and reg_dump ends; none of them crashes, exhausts the stack or runs forever.", "quantifier": "Every content of the hive file and of its logs, every filter, path and key obtained, every export format.", "why_tests_cant": "All byte strings, free space included; the tests recover from a few sample hives.", "anchors": ["src/parser_recover_deleted.rs:ParserRecoverDeleted", "src/parser.rs:Parser::init_recover_deleted", "src/parser.rs:Parser::init", "src/parser.rs:ParserIterator::iter", "src/cell_key_node.rs:CellKeyNode::update_modified_lists", "bin/reg_dump/main.rs:main"]}
{"id": "C87", "title": "The path a key tells leads back to it", "statement": "Every key listed tells its path, and without the name of the root its pretty path. Looking up the path (with the root in it) or the pretty path (without) in the same hive finds that very key, at any time; in Python, opening the path or the pretty path of a key does.", "quantifier": "Every hive opened without recovery, with any logs, every key listed, any other lookups before.", "why_tests_cant": "All trees of keys and names, with characters of any width in the name of the root, which is cut off by its length in bytes; the tests ask for the pretty path of two keys.", "anchors": ["src/cell_key_node.rs:CellKeyNode::get_pretty_path", "src/util.rs:get_root_path_offset", "src/parser.rs:Parser::get_key", "pynotatin/src/py_notatin_key.rs:pretty_path", "pynotatin/src/py_notatin_parser.rs:open"]}
{"id": "C88", "title": "However the sub-keys of a key are asked for, the same keys come", "statement": "Of every key obtained from an opened hive, reading all sub-keys at once, asking for them by index 0, 1, 2, … and asking for the next one until there is none give the same keys with the same contents, in the same order.", "quantifier": "Every file, with or without recovery and logs, every key obtained in any way, deleted ones among them.", "why_tests_cant": "All files and keys: the three ways are written separately, with other checks each, and differ only for keys that are deleted, damaged or say to have very many sub-keys; the tests compare a few sub-keys of one well-formed key with names written into the tests.", "anchors": ["src/cell_key_node.rs:CellKeyNode::read_sub_keys", "src/cell_key_node.rs:CellKeyNode::get_sub_key_by_index", "src/cell_key_node.rs:CellKeyNode::next_sub_key", "src/cell_key_node.rs:CellKeyNode::read_sub_keys_internal", "pynotatin/src/py_notatin_key.rs:sub_keys_iterator"]}
{"id": "C89", "title": "Whatever the damage, every key that can be reached is listed once, and a filter only takes keys away", "statement": "Of an opened hive whose listing comes to its end, the listing without a filter holds every key cell that can be reached from the root: named by the sub-key list of a key that is reached, and readable as a key. It holds none of them twice. The listing in the other order comes to an end, too, and holds the same keys. And whatever the filter, what is listed with it is listed without it.", "quantifier": "Every file, whatever its bytes: damaged cells, lists that lead back to keys above, cells that are no keys; every filter; with or without logs; with recovery for files whose states stay orderly.", "why_tests_cant": "All byte strings: damage can be anywhere and lists can share keys and form rings; the tests list a few sound files and some files with one kind of damage.", "anchors": ["src/parser.rs:Parser::next_key_preorder", "src/parser.rs:Parser::next_key_postorder", "src/parser.rs:ParserIteratorContext::push_check_stack_to_traverse", "src/cell_key_node.rs:CellKeyNode::read_sub_keys_internal", "src/cell_key_node.rs:CellKeyNode::parse_sub_key_list", "src/sub_key_list_ri.rs:SubKeyListRi::parse_offsets"]}
{"id": "C90", "title": "Reading the same files again gives the same answer", "statement": "Opening the same hive with the same logs and options twice gives the same hive: the same listing in the same order, the same answers to lookups, the same recovered keys and values. Two runs of reg_dump on the same files write the same.", "quantifier": "Every file and all logs, every filter, path and export format, with and without recovery; whatever the size of the stack, the time taken and the order in which hash maps are walked.", "why_tests_cant": "A test runs with one seed of the hash maps and compares sets or counts; that nothing seen depends on the seed is about all seeds and all files.", "anchors": ["src/transaction_log.rs:TransactionAnalyzer::get_latest_reg_items", "src/reg_item_map.rs:RegItemMap", "src/parser_builder.rs:ParserBuilder::build", "src/cell_key_node.rs:CellKeyNode::update_modified_lists", "src/parser.rs:ParserIterator::iter", "bin/reg_dump/main.rs:main"]}
{"id": "C91", "title": "Giving a transaction log twice is like giving it once", "statement": "When one of the transaction logs is handed to the parser builder a second time, in whatever place, the hive opens as it does with each log given once: the same keys, values, recovered items and answers; only the warnings may differ.", "quantifier": "every hive, every list of logs with different sequence numbers, every log among them and every order of the longer list", "why_tests_cant": "Which entries are skipped the second time depends on sequence numbers in all logs; a test can try one pair of files, not every list of logs and every place of the copy.", "anchors": ["src/parser.rs:Parser::apply_transaction_logs", "src/transaction_log.rs:TransactionLog::parse", "src/transaction_log.rs:TransactionLog::update_parser", "src/parser_builder.rs:ParserBuilderFromPath::build"]}
