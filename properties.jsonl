{"id": "C01", "title": "Unsigned varint round trip", "statement": "Writing any u64 with write_u_varint and reading it back with read_u_varint from a stream that continues with arbitrary further bytes yields the same value and leaves exactly those further bytes unread.", "quantifier": "every u64 value and every byte sequence that follows it", "why_tests_cant": "2^64 values times every continuation; unit tests try a handful of values with nothing behind them", "anchors": ["smdiff-common/src/lib.rs:write_u_varint", "smdiff-common/src/lib.rs:read_u_varint"]}
{"id": "C02", "title": "Signed varint round trip", "statement": "Writing any i64 with write_i_varint and reading it with read_i_varint yields the same value, including i64::MIN and i64::MAX, and leaves the following bytes unread; the zig-zag map is a bijection between i64 and u64 and sends n>=0 to 2n and n<0 to -2n-1.", "quantifier": "every i64 value, every u64 value and every byte sequence that follows", "why_tests_cant": "2^64 values; tests sample nine", "anchors": ["smdiff-common/src/lib.rs:zigzag_encode", "smdiff-common/src/lib.rs:zigzag_decode", "smdiff-common/src/lib.rs:write_i_varint", "smdiff-common/src/lib.rs:read_i_varint"]}
{"id": "C03", "title": "Varints are minimal and their predicted size is exact", "statement": "write_u_varint(n) emits exactly u_varint_encode_size(n) bytes, between 1 and 10 (so its 10 byte buffer never overflows), and no byte string that read_u_varint decodes to n (consuming it entirely, without a shift overflow) is shorter.", "quantifier": "every u64 and every alternative encoding of it", "why_tests_cant": "minimality quantifies over all competing byte strings", "anchors": ["smdiff-common/src/lib.rs:write_u_varint", "smdiff-common/src/lib.rs:u_varint_encode_size"]}
{"id": "C04", "title": "Relative copy addresses reproduce the absolute address", "statement": "For every pair of u64 addresses (last, target), decoding the signed difference produced for them against the same last address gives back target (release arithmetic, no restriction); in a debug build encode panics exactly when last - target = 2^63 and decode panics exactly on the difference i64::MIN.", "quantifier": "all pairs of 64-bit addresses, both build profiles", "why_tests_cant": "2^128 pairs; the wrap-around corner is a single difference value", "anchors": ["smdiff-common/src/lib.rs:diff_addresses_to_u64", "smdiff-common/src/lib.rs:diff_addresses_to_i64"]}
{"id": "C05", "title": "Operation write/read round trip", "statement": "For every operation the writer accepts (Run of 1..=62 bytes, Copy of 0..=65535 bytes at any u64 address, Add of 0..=65535 bytes) and every pair of last addresses, reading the bytes written for it yields the same operation, the same updated last addresses, and consumes exactly those bytes.", "quantifier": "every operation, every pair of current dict/output addresses, every following byte string", "why_tests_cant": "unbounded Add contents, 2^64 addresses, all lengths and every size-field form", "anchors": ["smdiff-writer/src/lib.rs:write_op_byte_and_size", "smdiff-writer/src/lib.rs:write_op_addtl", "smdiff-reader/src/lib.rs:read_op"]}
{"id": "C06", "title": "Everything written conforms to the format grammar", "statement": "Every section that write_section_header plus write_ops report as successfully written is a byte string of the SMDIFF section grammar (control byte, counts, size fields, zig-zag relative addresses starting from 0, add bytes inline or at the end), for exactly the given operations.", "quantifier": "every operation list and header for which the writer returns Ok (adds at most 65535 bytes, algo at most 7)", "why_tests_cant": "conformance must hold for all op lists, not the three in the tests", "anchors": ["smdiff-writer/src/lib.rs:write_section_header", "smdiff-writer/src/lib.rs:write_ops", "spec.md"]}
{"id": "C07", "title": "Reader accepts every grammatical section", "statement": "Any byte string of the SMDIFF section grammar - also one no bundled writer would emit, such as non-minimal size fields, zero padded varints of at most 10 bytes, or zero-length copies - followed by arbitrary bytes is read to exactly the operations it denotes, leaving exactly the following bytes.", "quantifier": "every string of the grammar, both formats, both build profiles", "why_tests_cant": "the grammar is an infinite language; interop partners choose encodings the tests never show", "anchors": ["smdiff-reader/src/lib.rs:read_section_header", "smdiff-reader/src/lib.rs:read_ops_no_comp", "smdiff-reader/src/lib.rs:read_op", "smdiff-reader/src/lib.rs:read_section"]}
{"id": "C08", "title": "Reader accepts nothing else", "statement": "If read_section returns Ok on some input then the consumed prefix is a string of the section grammar for the returned operations (with counters and output size understood modulo 2^32), and the unread rest is exactly what follows it.", "quantifier": "every input byte string", "why_tests_cant": "soundness over all inputs is what fuzzing only samples", "anchors": ["smdiff-reader/src/lib.rs:read_section", "smdiff-reader/src/lib.rs:read_op"]}
{"id": "C09", "title": "Malformed or truncated patches yield an error, never a panic", "statement": "Reading a section from arbitrary bytes in a release build returns a value or an io::Error; it never panics and always ends. A debug build either panics or does exactly what the release build does. Every strict prefix of a well-formed consistent section is refused with an end-of-file error in both builds. (The stronger claim that debug builds never panic either is refuted: over-long varints, a delta of i64::MIN and u32 counter overflow panic.)", "quantifier": "every input byte string, both build profiles", "why_tests_cant": "the panicking inputs are rare corner cases (11-byte varints, one value in 2^64, sums over 2^32)", "anchors": ["smdiff-reader/src/lib.rs:read_section", "smdiff-common/src/lib.rs:read_u_varint", "smdiff-common/src/lib.rs:diff_addresses_to_u64"]}
{"id": "C10", "title": "Section header round trip", "statement": "A header written with algo<=7 and num_add_bytes<=output_size reads back field for field (num_add_bytes reads as 0 in interleaved format, where it is not stored), consuming exactly the header bytes.", "quantifier": "all header values over u8/u32 fields, every following byte string", "why_tests_cant": "product of several 32-bit domains", "anchors": ["smdiff-writer/src/lib.rs:write_section_header", "smdiff-reader/src/lib.rs:read_section_header"]}
{"id": "C11", "title": "Section round trip in both formats", "statement": "For all legal ops with a matching header, in interleaved and in segregated format, write_section_header+write_ops succeeds and read_section on the bytes followed by anything returns exactly the same operations and leaves what follows.", "quantifier": "every list of legal ops, both formats, any following bytes", "why_tests_cant": "unbounded op lists; the segregated fill-in pass depends on every add in order", "anchors": ["smdiff-writer/src/lib.rs:write_ops", "smdiff-reader/src/lib.rs:read_ops_no_comp"]}
{"id": "C12", "title": "write_ops accepts exactly the consistent sections", "statement": "For legal ops write_ops returns Ok if and only if the header's operation count equals the number of ops, its output size equals the total of the op lengths and does not exceed 2^24-1, and (segregated) its num_add_bytes equals the total number of add bytes; otherwise it returns an error, and it never panics.", "quantifier": "every list of legal operations and every header", "why_tests_cant": "both directions quantify over all inconsistent headers", "anchors": ["smdiff-writer/src/lib.rs:write_ops"]}
{"id": "C13", "title": "Illegal run lengths are refused loudly", "statement": "Writing a Run of length 0 or more than 62 panics and never emits a size byte that would be read as something else.", "quantifier": "every run length outside 1..=62, in any position of any op list", "why_tests_cant": "must hold at every position in every list", "anchors": ["smdiff-writer/src/lib.rs:write_op_byte_and_size"]}
{"id": "C14", "title": "A read section delivers what its header promises", "statement": "If read_section returns Ok, exactly num_operations operations are returned and the lengths of the operations add up to output_size (modulo 2^32, and exactly in a debug build or when fewer than 65537 operations are present).", "quantifier": "every input byte string", "why_tests_cant": "a claim about all accepted inputs, including adversarial ones", "anchors": ["smdiff-reader/src/lib.rs:read_ops_no_comp"]}
{"id": "C15", "title": "What num_add_bytes of a read section reports", "statement": "After read_section the header's num_add_bytes is, for a segregated section, the encoded value plus the total number of Add bytes in the returned operations - so twice the true total for every section the bundled writer wrote - and 0 for an interleaved section. (The claim in the code comment, that 'the header reflects reality', is thereby refuted.)", "quantifier": "every readable section", "why_tests_cant": "a single test with one add byte in interleaved format would not look at the field", "anchors": ["smdiff-reader/src/lib.rs:read_ops_no_comp"]}
{"id": "C16", "title": "Sectioning is a partition with exact headers", "statement": "make_sections returns at least one section; concatenating the sections' ops gives the input; each header carries the exact op count, output size and add-byte total of its ops; the output size never exceeds max_section_size clamped to 65535..=2^24-1; no section but that of an empty input is empty; more_sections is true on all but the last.", "quantifier": "every list of ops with positive length and every requested maximum", "why_tests_cant": "boundary conditions depend on all partial sums of the list", "anchors": ["smdiff-writer/src/lib.rs:make_sections"]}
{"id": "C17", "title": "Sectioning is greedy", "statement": "make_sections closes a section only when the next operation would not fit: adding the first op of the following section to a section would exceed the clamped maximum.", "quantifier": "every op list and requested maximum", "why_tests_cant": "a property of every boundary in every list", "anchors": ["smdiff-writer/src/lib.rs:make_sections"]}
{"id": "C18", "title": "Whole-patch round trip at operation level", "statement": "Dividing legal ops with make_sections, writing all sections in either format and iterating SectionIterator over the bytes (with anything behind them) yields precisely the same operations in order, ends after the last section, and leaves the trailing bytes unread.", "quantifier": "every list of legal ops, both formats, every maximum section size, every trailing bytes", "why_tests_cant": "unbounded number of sections and ops", "anchors": ["smdiff-writer/src/lib.rs:make_sections", "smdiff-reader/src/lib.rs:SectionIterator"]}
{"id": "C19", "title": "The iterator ends at the terminal section and stays ended", "statement": "Once SectionIterator has returned a section whose continuation bit is clear, every later call returns None and reads nothing; before that it never returns None.", "quantifier": "every input and every number of calls", "why_tests_cant": "a claim over call histories of any length", "anchors": ["smdiff-reader/src/lib.rs:SectionIterator", "smdiff-decoder/src/reader.rs:SectionIterator"]}
{"id": "C20", "title": "Applying a patch computes the format's meaning", "statement": "On an empty sink and an uncompressed patch, if apply_patch returns Ok the sink holds exactly the bytes obtained by executing the patch's operations one by one per spec section 3 (Add appends bytes, Run repeats, Copy_D copies from the dictionary, Copy_O from the output so far); and whenever that execution is defined apply_patch returns Ok.", "quantifier": "every patch byte string, every dictionary", "why_tests_cant": "needs all patches, including ones the bundled encoder never makes", "anchors": ["smdiff-decoder/src/lib.rs:apply_patch", "smdiff-decoder/src/lib.rs:apply_ops", "smdiff-decoder/src/reader.rs:SectionIterator"]}
{"id": "C21", "title": "Out-of-range copies are errors", "statement": "On an empty sink a Copy that reaches beyond the end of the dictionary, or beyond the output produced so far (so also any overlapping self-copy), makes apply_patch return an error and never delivers made-up bytes.", "quantifier": "every patch with such an op at any position, every dictionary", "why_tests_cant": "position and state dependent: must hold after every possible prefix of operations", "anchors": ["smdiff-decoder/src/lib.rs:apply_ops"]}
{"id": "C22", "title": "Partial output on failure is a correct prefix", "statement": "Whatever way apply_patch on an empty sink ends (Ok, error or panic), the sink holds exactly the output of the operations executed so far.", "quantifier": "every patch byte string, dictionary and failure position", "why_tests_cant": "all failure points of all patches", "anchors": ["smdiff-decoder/src/lib.rs:apply_patch", "smdiff-decoder/src/lib.rs:apply_ops"]}
{"id": "C23", "title": "A reused sink does not change the result of a good patch", "statement": "If a patch succeeds on an empty sink then applying it to a sink with any old contents, at any position, succeeds and yields the same output bytes followed by the unreplaced rest of the old contents. (For patches that fail on an empty sink this is refuted: Copy_O may read stale bytes past the write position that an empty sink would refuse.)", "quantifier": "every patch, dictionary and old sink contents", "why_tests_cant": "tests always use fresh sinks", "anchors": ["smdiff-decoder/src/lib.rs:apply_ops"]}
{"id": "C24", "title": "Patches without dictionary copies need no dictionary", "statement": "If a patch contains no Copy_D, apply_patch gives the same result for every dictionary and for none; if it executes a Copy_D with no dictionary it panics (not an error).", "quantifier": "every patch and every pair of dictionaries", "why_tests_cant": "two-run (relational) property", "anchors": ["smdiff-decoder/src/lib.rs:apply_ops"]}
{"id": "C25", "title": "Output size equals the sum of the section sizes", "statement": "If apply_patch succeeds on an empty sink in which all sections were read by a debug build (or have fewer than 65537 ops), the output length is the sum of the output_size fields of the sections read.", "quantifier": "every successful patch", "why_tests_cant": "quantifies over all patches", "anchors": ["smdiff-decoder/src/lib.rs:apply_patch"]}
{"id": "C26", "title": "Trailing bytes after the terminal section are irrelevant", "statement": "Appending anything to a patch that apply_patch accepts changes neither the outcome nor the sink.", "quantifier": "every accepted patch and every appended byte string", "why_tests_cant": "relational over all extensions", "anchors": ["smdiff-decoder/src/lib.rs:apply_patch", "smdiff-reader/src/lib.rs:SectionIterator"]}
{"id": "C27", "title": "Encode/apply round trip", "statement": "Whenever encode returns Ok, apply_patch with the same dictionary returns Ok and reproduces the target exactly - for every source, every target, every matcher configuration, lazy length, naive test, format, segment size and build profile, without secondary compression.", "quantifier": "every (source, target) pair of byte strings and every encoder configuration", "why_tests_cant": "the core promise of a delta tool; matchers, lazy matching and overlap resolution interact over unbounded inputs", "anchors": ["smdiff-encoder/src/lib.rs:encode", "smdiff-encoder/src/encoder.rs:encode_inner", "smdiff-encoder/src/op_maker.rs:translate_inner_ops", "smdiff-decoder/src/lib.rs:apply_patch"]}
{"id": "C28", "title": "Encode/apply round trip with secondary compression", "statement": "The round trip also holds when sections are compressed with the built-in SMDIFF compressor, and - for a target that is not empty - with zstd or brotli, provided those libraries give back what was compressed and have consumed exactly their own frame when the last byte was read (the empty target is C77).", "quantifier": "every input, configuration and any codec with the stated law", "why_tests_cant": "nested encode/decode with a shared stream position", "anchors": ["smdiff-encoder/src/writer.rs:section_writer", "smdiff-decoder/src/reader.rs:SectionIterator", "smdiff-encoder/src/lib.rs:encode"]}
{"id": "C29", "title": "The encoder panics only in five situations", "statement": "encode panics only if (a) a prev_table_capacity is neither 0 nor a power of two, (b) target matching is on, a naive append test recognises the source at the start of the target and at most 3 bytes follow it, or (c) source matching is on and the target has a true match of at least lazy_escape_len bytes ending 5 to 8 bytes before its end; in debug builds also if source matching is on and (d) the product of the lengths of source and target overflows 64 bits, or (e) max_src_win_size is above 2^63. Outside these (and outside the diverging situation of C30) encode returns Ok. Each of the five really panics on some inputs, so the claim 'encode never panics' is refuted.", "quantifier": "every input and configuration, both build profiles", "why_tests_cant": "the failing inputs need a long match ending in one of four positions", "anchors": ["smdiff-encoder/src/encoder.rs:encode_inner", "smdiff-encoder/src/trgt_matcher.rs:TrgtMatcherConfig::build", "smdiff-encoder/src/hashmap.rs:ChainList::new"]}
{"id": "C30", "title": "The encoder terminates unless a naive append test seeds target matching", "statement": "encode finishes for every input and configuration unless target matching is on and a naive append test recognises the source at the start of the target. (In that situation the first position is stored twice; the chain walk can then loop forever, as a concrete input shows, so unconditional termination is refuted.)", "quantifier": "every input and configuration", "why_tests_cant": "termination cannot be tested", "anchors": ["smdiff-encoder/src/encoder.rs:encode_inner", "smdiff-encoder/src/hashmap.rs:PrevPositionIterator", "smdiff-encoder/src/trgt_matcher.rs:TrgtMatcher::find_best_trgt_match"]}
{"id": "C31", "title": "Every candidate the search produces is a true match", "statement": "Every MatchSrc/MatchTrgt/Run candidate equals the target bytes it covers, lies within the target, MatchTrgt sources end at or before the position they produce, starts never decrease and ends never decrease along the list.", "quantifier": "every input, configuration and loop history", "why_tests_cant": "must hold after any history of lazy retries and evictions", "anchors": ["smdiff-encoder/src/encoder.rs:encode_inner", "smdiff-encoder/src/src_matcher.rs:extend_src_match", "smdiff-encoder/src/trgt_matcher.rs:find_best_trgt_match"]}
{"id": "C32", "title": "Overlap resolution never loses or corrupts target bytes", "statement": "For any candidate list with the properties of C31, translate_inner_ops neither panics nor fails an assertion and its operations, executed in order, produce exactly the target.", "quantifier": "every target and every such candidate list, of any length and overlap pattern", "why_tests_cant": "arbitrary overlap patterns of arbitrary length", "anchors": ["smdiff-encoder/src/op_maker.rs:translate_inner_ops"]}
{"id": "C33", "title": "Encoder output is legal", "statement": "All operations produced by the encoder have length at least 1, Runs at most 62, Adds and Copies at most 65535; dictionary copies lie inside the source; output copies end at or before the current output position.", "quantifier": "every input and configuration; zstd and brotli: faithful libraries and a file that is not empty (see C77)", "why_tests_cant": "address and length bounds over unbounded inputs", "anchors": ["smdiff-encoder/src/op_maker.rs:translate_inner_ops", "smdiff-encoder/src/op_maker.rs:make_run_ops", "smdiff-encoder/src/op_maker.rs:make_copy_ops", "smdiff-encoder/src/op_maker.rs:make_add_ops"]}
{"id": "C34", "title": "Long runs expand exactly", "statement": "make_run_ops(byte,len,pos), executed when the output has length pos, appends exactly len copies of byte, using only runs of at most 62 and copies that stay inside the part of the run already written; it uses at most 6 runs below 372 bytes, and otherwise 3 runs and copies whose size doubles up to 65535.", "quantifier": "every byte, length and start position", "why_tests_cant": "unbounded lengths; the doubling schedule is checked for three lengths only", "anchors": ["smdiff-encoder/src/op_maker.rs:make_run_ops", "smdiff-merger/src/transcoder.rs:make_run_ops"]}
{"id": "C35", "title": "Every section of a patch respects the segment size", "statement": "encode writes sections whose output size is at most output_segment_size clamped to 65535..=2^24-1.", "quantifier": "every input and configuration; zstd and brotli: faithful libraries and a file that is not empty (see C77)", "why_tests_cant": "all inputs, all segment sizes", "anchors": ["smdiff-encoder/src/lib.rs:encode", "smdiff-writer/src/lib.rs:make_sections"]}
{"id": "C36", "title": "Incompressible data costs bounded overhead", "statement": "With no matchers, no naive tests and no secondary compression, encode of n target bytes never fails and produces at most n + 17*ceil(n/65535) + 14 bytes. With larger segments it is at most n + 3*ceil(n/65535) + 14*(floor(n/(segment size - 65534)) + 1) bytes.", "quantifier": "every target", "why_tests_cant": "size bound over unbounded inputs", "anchors": ["smdiff-encoder/src/lib.rs:encode", "smdiff-encoder/src/op_maker.rs:make_add_ops"]}
{"id": "C37", "title": "Rolling hashes equal the direct checksum", "statement": "Rolling the 9-byte checksum forward or backward by one position, and the 4-byte checksum forward, gives exactly the checksum computed directly on the shifted window, on 64-bit and on 32-bit targets (which have other constants).", "quantifier": "every window contents and every position of every input", "why_tests_cant": "2^80 window/byte combinations; multiplicative constants must be exact powers and inverses modulo 2^64 and 2^32", "anchors": ["smdiff-encoder/src/hasher.rs:update_large_checksum_fwd", "smdiff-encoder/src/hasher.rs:update_large_checksum_bwd", "smdiff-encoder/src/hasher.rs:update_small_checksum_fwd"]}
{"id": "C38", "title": "Matchers look up the hash of the window they compare", "statement": "Whenever the encoder queries the source matcher at a position with more than 9 bytes left at the start, the matcher's rolling hash is the checksum of the target window at that position; the target matcher's is once a jump of at least 4 bytes has been made; and the extension never loses that agreement. (Refuted without those conditions: a remainder of exactly 9 bytes is looked up with hash 0, and the target matcher starts with hash 0 and stays wrong until its first jump of at least 4 bytes.)", "quantifier": "every query during every run of the encoder", "why_tests_cant": "invariant over loop histories", "anchors": ["smdiff-encoder/src/encoder.rs:encode_inner", "smdiff-encoder/src/trgt_matcher.rs:TrgtMatcherConfig::build"]}
{"id": "C39", "title": "Hash table indexing is in bounds and the table is a faithful direct-mapped map", "statement": "For any requested capacity every bucket index computed from any hash (64-bit, or 32-bit when so built) is inside the table; a get after an insert of the same hash returns the inserted position, a get of another hash returns what it returned before or nothing, and a hash never inserted is never found.", "quantifier": "every capacity, every hash, every insertion history", "why_tests_cant": "operation histories of any length over 64-bit keys", "anchors": ["smdiff-encoder/src/hashmap.rs:BasicHashTable", "smdiff-encoder/src/hashmap.rs:get_bucket_idx", "smdiff-encoder/src/hashmap.rs:determine_hash_table_size_bits"]}
{"id": "C40", "title": "Chain walks only go backwards and inside the window", "statement": "Every position produced by walking the chain from a stored head is at most the head, lies less than the chain capacity behind the current position, and was stored earlier; positions are never repeated.", "quantifier": "every store history with increasing positions and every query", "why_tests_cant": "history dependent with aliasing modulo the capacity", "anchors": ["smdiff-encoder/src/hashmap.rs:PrevPositionIterator", "smdiff-encoder/src/hashmap.rs:ChainList"]}
{"id": "C41", "title": "Finding the controlling operation", "statement": "For contiguous operations (of at most 65535 bytes each) find_controlling_op returns an index exactly if the operation there has an output range that contains the position, and None exactly if the position is before the first or at or beyond the end of the last operation.", "quantifier": "every contiguous op list and every position", "why_tests_cant": "binary search over unbounded lists, incl. zero-length ops", "anchors": ["smdiff-merger/src/lib.rs:find_controlling_op"]}
{"id": "C42", "title": "Exact slices produce exactly the requested bytes", "statement": "For contiguous ops of positive length, get_exact_slice(ops,start,len) with len>0 returns Some exactly if start+len is within the total, and the returned ops produce exactly the bytes start..start+len of the output of the given ops (for ops without output copies), contiguous and each of positive length.", "quantifier": "every op list, start and length", "why_tests_cant": "all clip combinations at both ends over unbounded lists", "anchors": ["smdiff-merger/src/lib.rs:get_exact_slice", "smdiff-merger/src/lib.rs:MergeOp"]}
{"id": "C43", "title": "Dereferencing output copies preserves the result", "statement": "deref_copy_o turns any op list with a defined output into one without Copy_O and with the same output for the same dictionary, contiguous positions and legal lengths; it does not panic on such lists.", "quantifier": "every op list with defined output and positive lengths, every dictionary", "why_tests_cant": "chains of output copies of copies, unbounded depth", "anchors": ["smdiff-merger/src/lib.rs:deref_copy_o"]}
{"id": "C44", "title": "Merging two patches equals applying them in sequence", "statement": "If patch P1 turns A into B and patch P2 turns B into C then Merger::new(P2).merge(P1) succeeds and the resulting operations turn A into C (if new already returns a summary, that gives C for every source).", "quantifier": "every pair of composable patches without zero-length operations and every source A for which they are defined; in debug builds P2 copies from the dictionary or not at all (see C47)", "why_tests_cant": "composition of arbitrary patches", "anchors": ["smdiff-merger/src/lib.rs:Merger::new", "smdiff-merger/src/lib.rs:Merger::merge", "smdiff-merger/src/lib.rs:expand_to"]}
{"id": "C45", "title": "Merging any chain of patches equals applying them in order", "statement": "For P1..Pn, folding merge from the last to the first gives a patch that maps A to the final file; merging can be stopped early as soon as a summary without copies is returned.", "quantifier": "every n and every chain of composable patches without zero-length operations; in debug builds the last patch copies from the dictionary or not at all (see C47)", "why_tests_cant": "unbounded chains", "anchors": ["smdiff-merger/src/lib.rs:Merger::merge", "smdiff-merger/src/lib.rs:Merger::finish"]}
{"id": "C46", "title": "A summary patch from a merge step needs no source", "statement": "When merge (or new) returns a SummaryPatch instead of a Merger, the contained ops contain no copy at all, and produce the same output with every source and without one.", "quantifier": "every sequence of new and merge calls on patches without zero-length operations, composable or not", "why_tests_cant": "must hold for every way copies get resolved", "anchors": ["smdiff-merger/src/lib.rs:Merger::new", "smdiff-merger/src/lib.rs:Merger::merge", "smdiff-merger/src/lib.rs:SummaryPatch"]}
{"id": "C47", "title": "When Merger::new accepts a valid patch", "statement": "On a patch that applies, Merger::new returns normally in release builds, and in debug builds exactly if the patch has a dictionary copy or no copy at all; a patch whose only copies are output copies makes it panic in debug builds. (That it always returns normally is refuted, as is dropping the condition on zero-length copies.)", "quantifier": "every valid patch of positive-length operations, both build profiles", "why_tests_cant": "needs a patch shape the tests do not contain", "anchors": ["smdiff-merger/src/lib.rs:Merger::new"]}
{"id": "C48", "title": "A merged patch survives writing and applying", "statement": "Writing the merged summary with SummaryPatch::write (any window size, any format, no secondary compression, the built-in one with a legal chain capacity, or - for a final file that is not empty - a faithful library) succeeds and applying the bytes to A gives C.", "quantifier": "every composable chain, every format and window size", "why_tests_cant": "end-to-end over arbitrary chains", "anchors": ["smdiff-merger/src/lib.rs:SummaryPatch::write", "smdiff-decoder/src/lib.rs:apply_patch"]}
{"id": "C49", "title": "What patch statistics report", "statement": "extract_patch_instructions reports the exact byte totals and counts of adds and runs and the exact count of output copies; copy_bytes is twice the copied bytes, copy_d_cnt is twice the number of dictionary copies plus the number of output copies, and output_size is the output size plus the copied bytes. (That all fields are accurate is refuted by a witness.)", "quantifier": "every readable patch", "why_tests_cant": "needs an exact formula over all op lists", "anchors": ["smdiff-merger/src/lib.rs:extract_patch_instructions", "smdiff-merger/src/lib.rs:Stats"]}
{"id": "C50", "title": "Extracted instructions are positioned contiguously", "statement": "extract_patch_instructions returns the patch's operations in order, each tagged with the total length of the operations before it.", "quantifier": "every readable patch", "why_tests_cant": "prefix sums over unbounded lists and sections", "anchors": ["smdiff-merger/src/lib.rs:extract_patch_instructions"]}
{"id": "C51", "title": "Transcoding preserves meaning", "statement": "For every patch with at least one operation and no copies of length 0 that applies to some dictionary, transcode - to any format, segment size and working secondary compression - succeeds, and the new patch gives, with every dictionary, the same file as the given one, or none if that gives none.", "quantifier": "every patch with at least one operation, every dictionary and target format; zstd and brotli: faithful libraries and a file that is not empty (see C77)", "why_tests_cant": "joins, splits and run expansion over arbitrary op lists", "anchors": ["smdiff-merger/src/transcoder.rs:transcode", "smdiff-merger/src/transcoder.rs:optimize_and_convert_ops"]}
{"id": "C52", "title": "Transcoding optimises to legal operations", "statement": "A transcoded patch has exactly the copies of the given patch, in the same order, Runs of 1..=62 bytes, Adds of 1..=65535 bytes, and no more operations than the given patch.", "quantifier": "every operation list; zstd and brotli: faithful libraries and a file that is not empty (see C77)", "why_tests_cant": "all chunk boundaries", "anchors": ["smdiff-merger/src/transcoder.rs:make_add_ops", "smdiff-merger/src/transcoder.rs:make_run_ops"]}
{"id": "C53", "title": "Which valid patches can be transcoded", "statement": "transcode panics, in debug and release builds, on every readable patch without operations - such as encode's output for an empty target; it returns Ok on every readable patch with at least one operation whose copies have positive length and addresses below 2^63; and it reports the read error of every unreadable patch without writing. (So the expectation that every valid patch can be transcoded is refuted.)", "quantifier": "every readable patch", "why_tests_cant": "the empty patch is a corner the tests omit", "anchors": ["smdiff-merger/src/transcoder.rs:join_adjacent_adds", "smdiff-merger/src/transcoder.rs:join_adjacent_runs"]}
{"id": "C54", "title": "VCDIFF translation preserves meaning", "statement": "For every well-formed VCDIFF instruction stream (windows with a source segment, a segment of the earlier output or none; adds, runs, source copies, target copies, self-overlapping copies whose period or length is at most 65535) convert_vcdiff_to_smdiff returns Ok and writes a terminated patch of interleaved, uncompressed sections with legal operations that applies, with the same source, to the output the stream denotes by RFC 3284; an error of the VCDIFF parser is reported.", "quantifier": "every well-formed instruction stream, every source below 2^63 bytes, every build", "why_tests_cant": "unbounded streams with all copy kinds; instructions split at 65535 and 62, sections at 16 MiB", "anchors": ["smdiff-vcdiff/src/lib.rs:convert_vcdiff_to_smdiff"]}
{"id": "C55", "title": "Which VCDIFF streams can be converted", "statement": "For a well-formed stream convert_vcdiff_to_smdiff returns Ok exactly if no self-overlapping copy has both a period and a length above 65535; otherwise it returns an InvalidData error - in debug and release builds, never a panic and never a wrong patch. (So the expectation that every well-formed stream can be converted is refuted: the length of a chunk is truncated to 16 bits.) A copy with period 0, which no well-formed stream has, makes it loop forever.", "quantifier": "every well-formed stream, every period and length, every build", "why_tests_cant": "needs a period above 65535; everything before and after it is arbitrary", "anchors": ["smdiff-vcdiff/src/lib.rs:convert_vcdiff_to_smdiff"]}
{"id": "C56", "title": "Compression levels map into their documented ranges", "statement": "For levels 0..=9 the derived l_step lies in 2..=26 and does not increase with the level, early-exit in 6..=70 and chain checks in 1..=33 and do not decrease; Ranger::map never underflows, clamps out-of-range inputs to the nearest end and hits both ends.", "quantifier": "every input value and every pair of ranges with at least two inputs", "why_tests_cant": "all ranges, both directions", "anchors": ["smdiff-encoder/src/lib.rs:Ranger", "smdiff-encoder/src/src_matcher.rs:SrcMatcherConfig::comp_level", "smdiff-encoder/src/trgt_matcher.rs:TrgtMatcherConfig::comp_level"]}
{"id": "C57", "title": "Source windows stay inside the source", "statement": "Every position whose hash is stored for the source is a multiple of l_step with 9 bytes available behind it, for every window computed while sliding.", "quantifier": "every source/target length, step, window size and output position", "why_tests_cant": "sliding-window arithmetic over unbounded sizes", "anchors": ["smdiff-encoder/src/src_matcher.rs:calculate_window_range", "smdiff-encoder/src/src_matcher.rs:add_start_positions_to_matcher"]}
{"id": "C58", "title": "Empty targets are encoded and restored", "statement": "Encoding an empty target yields a 3-byte (interleaved) or 4-byte (segregated) patch that applies to an empty output with any or no dictionary, for every configuration without secondary compression.", "quantifier": "every source and configuration", "why_tests_cant": "all configurations", "anchors": ["smdiff-encoder/src/lib.rs:encode", "smdiff-encoder/src/encoder.rs:encode_inner"]}
{"id": "C59", "title": "A failing writer receives a prefix of the patch", "statement": "If the writer passed to write_section_header/write_ops/section_writer fails after accepting k bytes, the call reports the error and the accepted bytes are the first k bytes of what a perfect writer would have received.", "quantifier": "every failure point k, every section", "why_tests_cant": "all crash points of all sections", "anchors": ["smdiff-writer/src/lib.rs:write_ops", "smdiff-writer/src/lib.rs:write_section_header", "smdiff-encoder/src/writer.rs:section_writer"]}
{"id": "C60", "title": "Unassigned compression identifiers are read as uncompressed", "statement": "Every grammatical section whose header carries an unassigned compression id (4..7) is accepted by the decoder's reader and read exactly as if it were uncompressed. (So the expectation that unknown ids are rejected is refuted.)", "quantifier": "every patch with such a header", "why_tests_cant": "tests only use ids 0..3", "anchors": ["smdiff-decoder/src/reader.rs:SectionIterator::read_ops"]}
{"id": "C61", "title": "Where the op byte differs from the published bit layout", "statement": "For every operation the written OpByte holds the operation type in bits 6-7 and the size value in bits 0-5; it agrees with the layout published in spec.md 4.2.1 (type in bits 0-1, size in bits 2-7) exactly when the size value is 21 times the type number. (So conformance to the published layout is refuted.)", "quantifier": "every operation", "why_tests_cant": "the tests were written against the code", "anchors": ["smdiff-common/src/lib.rs:OP_MASK", "smdiff-common/src/lib.rs:SIZE_MASK", "spec.md"]}
{"id": "C62", "title": "Which size form each length is written with", "statement": "Every legal operation of length 1..=62 is written with its size in the op byte, length 63 with one size byte, and every other length - including 64..=317, for which spec 4.2.2 has a one-byte form - with two size bytes. (So the claim that 63..=317 use the one-byte form is refuted for every length but 63.)", "quantifier": "every length", "why_tests_cant": "a table of 255 lengths of which tests use none", "anchors": ["smdiff-common/src/lib.rs:size_routine", "smdiff-writer/src/lib.rs:write_op_byte_and_size"]}
{"id": "C63", "title": "Oversized adds are silently corrupted", "statement": "For every Add of more than 65535 bytes the length is taken modulo 65536: with a header that matches the truncated length write_ops returns Ok, and the section no longer reads back as written. (So the expectation that such an Add is refused is refuted.)", "quantifier": "every Add of more than 65535 bytes", "why_tests_cant": "tests use small adds", "anchors": ["smdiff-common/src/lib.rs:Op::oal", "smdiff-writer/src/lib.rs:write_ops"]}
{"id": "C64", "title": "Written sections are in the requested format", "statement": "Every section written by encode, transcode and a merged patch's write is in the requested format (interleaved or segregated) and carries the identifier of the requested secondary compression; the sections form one terminated patch.", "quantifier": "every input, format and secondary compression; zstd and brotli: faithful libraries and a file that is not empty (see C77)", "why_tests_cant": "all sections of all patches", "anchors": ["smdiff-encoder/src/lib.rs:encode", "smdiff-merger/src/transcoder.rs:transcode", "smdiff-merger/src/lib.rs:SummaryPatch::write"]}
{"id": "C65", "title": "Merging a history of versions", "statement": "Given the versions of a file v0, v1, ..., vn and for each step a patch that encode wrote (each with any configuration), merging all of them (debug builds: when the last patch copies from the dictionary or not at all) and writing the merged patch in any format, window size and secondary compression succeeds, and applying it to v0 gives vn.", "quantifier": "every history of versions, every choice of configurations, every output format; zstd and brotli: faithful libraries and a file that is not empty (see C77)", "why_tests_cant": "histories of every length with every configuration; the tests merge two or three fixed patches", "anchors": ["smdiff-encoder/src/lib.rs:encode", "smdiff-merger/src/lib.rs:Merger::merge", "smdiff-merger/src/lib.rs:SummaryPatch::write", "smdiff-decoder/src/lib.rs:apply_patch"]}
{"id": "C66", "title": "Any encoded patch can be transcoded", "statement": "A patch that encode wrote for a non-empty target can be transcoded to any format, segment size and secondary compression, in every build, without error or panic, and the result still turns the old file into the new one.", "quantifier": "every pair of files, every configuration, every transcoder setting; zstd and brotli: faithful libraries and a file that is not empty (see C77)", "why_tests_cant": "products of configurations of two tools over all inputs", "anchors": ["smdiff-encoder/src/lib.rs:encode", "smdiff-merger/src/transcoder.rs:transcode", "smdiff-decoder/src/lib.rs:apply_patch"]}
{"id": "C67", "title": "A patch depends only on the dictionary ranges it copies", "statement": "If apply_patch succeeds with a dictionary then every non-empty dictionary copy of the patch lies inside that dictionary, and it succeeds with the same output for every other dictionary that has the same bytes in the copied ranges, whatever it holds elsewhere and however long it is; in particular appending bytes to the dictionary changes nothing.", "quantifier": "every patch, dictionary and other dictionary, every sink", "why_tests_cant": "all pairs of dictionaries", "anchors": ["smdiff-decoder/src/lib.rs:apply_patch"]}
{"id": "C68", "title": "Expansion of a patch is bounded", "statement": "If apply_patch succeeds and no section is compressed, the output has at most 65535/4 bytes per byte of the patch; if some sections are SMDIFF-compressed and none zstd- or brotli-compressed, at most the square of that factor. The factor of an operation is attained.", "quantifier": "every patch that is applied successfully", "why_tests_cant": "a bound over all byte strings", "anchors": ["smdiff-decoder/src/lib.rs:apply_patch", "smdiff-decoder/src/reader.rs:SectionIterator"]}
{"id": "C69", "title": "Sections respect the requested size in all tools", "statement": "No section of a transcoded patch is larger than the requested segment size clamped to 65535..=2^24-1; the same holds for the window size of a merged patch's write, and no section of a converted VCDIFF stream is larger than 2^24-1 bytes.", "quantifier": "every input, size, format and secondary compression; zstd and brotli: faithful libraries and a file that is not empty (see C77)", "why_tests_cant": "all segmentations of all operation lists", "anchors": ["smdiff-merger/src/transcoder.rs:transcode", "smdiff-merger/src/lib.rs:SummaryPatch::write", "smdiff-vcdiff/src/lib.rs"]}
{"id": "C70", "title": "Headers made by the builder are written and read faithfully", "statement": "A header made with SectionHeader::new, set_compression_algo (any byte), set_format and set_more_sections is written and read back as exactly that, the compression identifier being clamped to 7. A header whose public compression field is set to a larger value directly is written without complaint and read with another identifier, and bits 3 and 4 of the value turn into the format and continuation flags. (So the expectation that an out-of-range identifier is refused is refuted.)", "quantifier": "all header values, all 256 identifiers", "why_tests_cant": "products of all fields", "anchors": ["smdiff-common/src/lib.rs:SectionHeader", "smdiff-writer/src/lib.rs:write_section_header", "smdiff-reader/src/lib.rs:read_section_header"]}
{"id": "C71", "title": "An unchanged or truncated file costs next to nothing", "statement": "With source matching on, a target that equals the source or is a beginning of it - at least ten bytes, the first four not all equal, the source at least 18 + 2*l_step bytes - is encoded without error, and the patch holds nothing but dictionary copies, one for each 65535 bytes; without secondary compression it has at most 27 bytes for each 65535 bytes of the target.", "quantifier": "every such source and target, every configuration with source matching (in debug builds: max_src_win_size at most 2^63); zstd and brotli: faithful libraries and a file that is not empty (see C77)", "why_tests_cant": "all files; the tests encode small fixed strings", "anchors": ["smdiff-encoder/src/lib.rs:encode", "smdiff-encoder/src/encoder.rs:encode_inner", "smdiff-encoder/src/src_matcher.rs", "smdiff-encoder/src/op_maker.rs"]}
{"id": "C72", "title": "A failing writer stops every tool cleanly", "statement": "Let the writer accept any number of bytes and then fail. encode, section_writer, the write of a merged patch, the transcoder and the VCDIFF conversion then deliver to it exactly the first bytes of what they would have written to memory and report the failure; if everything fits, outcome and bytes are those of writing to memory.", "quantifier": "every input and configuration of each tool, every point of failure", "why_tests_cant": "all crash points of all runs", "anchors": ["smdiff-encoder/src/lib.rs:encode", "smdiff-encoder/src/writer.rs:section_writer", "smdiff-merger/src/lib.rs:SummaryPatch::write", "smdiff-merger/src/transcoder.rs:transcode", "smdiff-vcdiff/src/lib.rs:convert_vcdiff_to_smdiff"]}
{"id": "C73", "title": "A patch that is cut off is refused", "statement": "Take any patch that can be applied, and cut it anywhere. Either only bytes behind the terminal section are lost and the result is the same, or apply_patch does not return Ok - for patches without zstd or brotli sections it returns an end-of-file error - and the sink holds a beginning of the right file. In particular no strict beginning of a patch written by encode, the merger, the transcoder or the VCDIFF conversion is accepted, so the file left behind by an encode whose writer failed can never be mistaken for a patch.", "quantifier": "every patch, every cut, every point of failure of the writer; libraries that decompress from left to right, and non-empty targets if they are used", "why_tests_cant": "all prefixes of all patches", "anchors": ["smdiff-decoder/src/lib.rs:apply_patch", "smdiff-decoder/src/reader.rs:SectionIterator", "smdiff-encoder/src/lib.rs:encode"]}
{"id": "C74", "title": "Debug and release builds do the same", "statement": "For encode, section_writer, apply_patch, Merger::new and merge, the write of a merged patch, transcode and the VCDIFF conversion: a build with overflow checks and debug assertions either panics, or returns the same outcome and leaves the same bytes as a release build. For encode both give the same patch on all inputs outside the situations in which the encoder can panic (C29).", "quantifier": "every input, configuration and codec of each tool, any writer", "why_tests_cant": "a test runs in one build; this compares both on all inputs", "anchors": ["smdiff-encoder/src/lib.rs:encode", "smdiff-decoder/src/lib.rs:apply_patch", "smdiff-merger/src/lib.rs:Merger", "smdiff-merger/src/transcoder.rs:transcode", "smdiff-vcdiff/src/lib.rs:convert_vcdiff_to_smdiff"]}
{"id": "C75", "title": "apply_patch on failing devices", "statement": "Let any call (seek, read_exact, write_all) on the sink or the dictionary fail, a write after delivering any number of bytes, according to any schedule. apply_patch stops at the first fault and returns its error; what the sink holds is then a beginning of the bytes that would have been written, over its old contents. If it returns Ok, no fault was met and the sink holds what it should.", "quantifier": "every patch, dictionary, sink contents and schedule of faults", "why_tests_cant": "all crash points and fault schedules", "anchors": ["smdiff-decoder/src/lib.rs:apply_patch", "smdiff-decoder/src/lib.rs:apply_ops"]}
{"id": "C76", "title": "A patch is never much larger than the target", "statement": "Without secondary compression the patch encode writes for a target of n bytes has at most 13*n + 28*floor(n/65536) + 14 bytes, with SMDIFF secondary compression at most 182*n + 56*floor(n/65536) + 28, and it has between n/(2^24-1) and 2*floor(n/65536) + 1 sections, whatever the source, the target and the configuration.", "quantifier": "every source, target and configuration; zstd and brotli: faithful libraries and a file that is not empty (see C77)", "why_tests_cant": "size bounds over unbounded inputs", "anchors": ["smdiff-encoder/src/lib.rs:encode", "smdiff-encoder/src/writer.rs:section_writer", "smdiff-writer/src/lib.rs:make_sections", "smdiff-encoder/src/op_maker.rs"]}
{"id": "C77", "title": "Empty files and compression libraries", "statement": "With zstd or brotli secondary compression, encode writes for an empty target a header of 3 (interleaved) or 4 (segregated) bytes and what the library makes of no bytes. As the decoder never reads a byte of the empty body, apply_patch gives the empty file with zstd exactly if the library opens that frame (otherwise it panics), and with brotli exactly if the library opens it and lets its reader be closed before anything was read (otherwise the library's error is returned). That a library gives back all non-empty data does not settle this: there are such libraries with which the round trip of the empty target fails.", "quantifier": "every dictionary, configuration, build and library", "why_tests_cant": "the claim is about all libraries; a test sees one", "anchors": ["smdiff-encoder/src/writer.rs:section_writer", "smdiff-decoder/src/reader.rs:SectionIterator::read_ops", "smdiff-encoder/src/lib.rs:encode"]}
{"id": "C78", "title": "Buffers are appended to, kept apart and reused safely", "statement": "read_section appends to the caller's buffer: what was in it stays in front, after Ok exactly the section's operations follow, after an error at most as many operations as the header announces; outcome and header do not depend on the buffer. The iterators of the reader and the decoder crate yield the same sections whatever was read before and whichever sections are borrowed or taken. The loops that write several sections with one buffer write what they would write with a fresh one for each. section_writer itself requires an empty buffer: bytes left in it are compressed in front of the section's body. A call that fails leaves such bytes, so that after an error a caller who reuses the buffer gets Ok and a patch that decodes without an error to wrong bytes.", "quantifier": "every source, every buffer contents, every sequence of borrowing and taking calls, every list of sections, any writer", "why_tests_cant": "all histories of calls on one object", "anchors": ["smdiff-reader/src/lib.rs:read_section", "smdiff-reader/src/lib.rs:SectionIterator", "smdiff-decoder/src/reader.rs:SectionIterator", "smdiff-encoder/src/writer.rs:section_writer"]}
{"id": "C79", "title": "What the settings of the encoder mean", "statement": "A configuration built with setters has in each field the value of the last setter of it, and otherwise the documented default; comp_level(level, match_trgt, sec_comp) has the matchers of that level, the target matcher only if asked for, the segregated format exactly if there is secondary compression and otherwise the defaults, and panics above level 9; new() is comp_level(3, false, None). What encode writes and returns is the same for: no lazy_escape_len and 90 (the documentation says 45, and with 45 the patch can differ); all lazy_escape_len up to 4; a segment size and that size brought into 65535..=2^24-1; l_step 0 and 1; no max_src_win_size and 2^26; a max_src_win_size and the next power of two, at least 2^20; any two max_src_win_size if the dictionary is shorter than 2^19 bytes; any naive tests if the target is no longer than the source; no prev_table_capacity and half the target's length rounded up to a power of two, at most 2^18; any dictionary, naive tests and lazy_escape_len if both kinds of matching are off.", "quantifier": "every dictionary, target, configuration, library, build and writer (files shorter than 2^63 bytes for the window size and for no matching; for prev_table_capacity without naive tests)", "why_tests_cant": "equality of the output for all inputs and all values of the settings", "anchors": ["smdiff-encoder/src/lib.rs:EncoderConfig", "smdiff-encoder/src/src_matcher.rs:SrcMatcherConfig", "smdiff-encoder/src/trgt_matcher.rs:TrgtMatcherConfig"]}
{"id": "C80", "title": "encode starts where the readers stand, apply_patch does not", "statement": "encode takes dictionary and target from the current positions of their readers to the end, and leaves both at the end: outcome and patch are those for the rest of the files, and a second call with the same readers encodes two empty files. A reader that fails makes encode return its error with nothing written, a broken dictionary before the target is touched. apply_patch seeks absolutely in the dictionary, so the position of its reader does not matter. Hence the round trip with the same dictionary holds for readers at the start, and does not hold otherwise: a dictionary read from byte 5 on gives a patch that apply_patch turns into another file without any error.", "quantifier": "all files, positions and broken spots, all configurations, libraries, builds and writers", "why_tests_cant": "all positions of all files; the tests use fresh cursors", "anchors": ["smdiff-encoder/src/lib.rs:encode", "smdiff-decoder/src/lib.rs:apply_ops"]}
{"id": "C81", "title": "a common beginning, or the whole source at an end, costs next to nothing", "statement": "Without secondary compression: with the naive test for appended data, a target that is the source followed by more bytes gives a patch of at most 13 bytes for each further byte, 41 for each 65535 bytes of the target, and 183; with the test for data put in front, a target that is more bytes followed by the source gives at most 13 bytes for each of these, 41 for each 65535 bytes, and 241. Without any naive test, with source matching on, a target that begins like the source - at least ten bytes and at least lazy_escape_len of them, the first four not all equal, in a source of at least 18 + 2 * l_step bytes - gives at most 13 bytes for each byte behind the common beginning, 41 for each 65535 bytes, and 183, whatever other matches the search finds, and however they overlap.", "quantifier": "all sources, targets and further bytes, all configurations without secondary compression, both builds, every successful encode", "why_tests_cant": "all pairs of files with a common beginning; which other matches the search finds and how they are cut depends on the whole files", "anchors": ["smdiff-encoder/src/encoder.rs:encode_inner", "smdiff-encoder/src/op_maker.rs:translate_inner_ops", "smdiff-encoder/src/src_matcher.rs:find_best_src_match"]}
{"id": "C82", "title": "how a reader delivers the patch does not matter, and its own errors are reported", "statement": "apply_patch, read_section and their parts read the patch from any std::io::Read. For a reader that delivers its bytes in pieces of any size and with any (finite) number of interruptions, apply_patch has the same outcome and leaves the same sink as for the bytes in memory, on every sink. For a reader that fails, the sink is the same as if the file ended there; a failure behind the last section is never noticed; a failure inside a patch that needs no library is returned as it is, and the sink then holds a beginning of the right file; the functions of smdiff-reader return the reader's error exactly where the bytes in memory would give an end-of-file error.", "quantifier": "all readers that obey the contract of std::io::Read, all patches (also malformed), sinks, dictionaries, points of failure, both builds; decompression libraries that depend only on the bytes of their source", "why_tests_cant": "there are infinitely many ways to cut a stream into pieces, and a failure can come at every byte", "anchors": ["smdiff-common/src/lib.rs:read_u8, read_u16, read_u_varint", "smdiff-reader/src/lib.rs:read_section, read_op, read_ops_no_comp", "smdiff-decoder/src/lib.rs:apply_patch", "smdiff-decoder/src/reader.rs:SectionIterator"]}
{"id": "C83", "title": "into_inner of the plain iterator gives the reader back directly behind the patch", "statement": "Out of any reader that holds an uncompressed patch and anything behind it, smdiff-reader's SectionIterator delivers exactly the sections of the patch, then None, and into_inner gives the reader back with exactly the rest in it. This is not so for smdiff-decoder's SectionIterator, which reads through a buffer: when patch and rest come in one piece of at most 8192 bytes, into_inner gives back an exhausted reader after the first call of next.", "quantifier": "all patches, all data behind them, all readers (first part); all non-empty pieces of at most 8192 bytes (second part), both builds", "why_tests_cant": "the position after reading depends on every byte count of every operation", "anchors": ["smdiff-reader/src/lib.rs:SectionIterator", "smdiff-decoder/src/reader.rs:SectionIterator"]}
{"id": "C84", "title": "how a writer takes the patch does not matter, and its own errors are returned", "statement": "write_u_varint, write_section_header, write_ops, section_writer, encode, SummaryPatch::write, the transcoder and the VCDIFF converter write to any std::io::Write. What they write and how they end does not depend on the writer: one that takes the bytes in pieces of any size, with any finite number of interruptions in a row, gets all of them; one that fails, or takes none of the bytes offered (WriteZero), has got a true beginning of them and its error is returned at once. The same holds of a BufWriter of any capacity, for the bytes that arrived together with those in its buffer. No function flushes: success is no guarantee until the caller has flushed, and then all bytes have arrived. If encode reports success to an unbuffered writer, what arrived is a patch that makes the target, and if not, what arrived cannot be applied.", "quantifier": "all writers that obey the contract of std::io::Write, all eight functions with all arguments (also malformed), all capacities, both builds", "why_tests_cant": "there are infinitely many ways to take a stream in pieces, and a failure can come at every byte", "anchors": ["smdiff-common/src/lib.rs:write_u_varint", "smdiff-writer/src/lib.rs:write_section_header, write_ops", "smdiff-encoder/src/writer.rs:section_writer", "smdiff-encoder/src/lib.rs:encode", "smdiff-merger/src/lib.rs:SummaryPatch::write", "smdiff-merger/src/transcoder.rs", "smdiff-vcdiff/src/lib.rs"]}
{"id": "C85", "title": "how readers deliver the two files does not matter to encode; from file to file", "statement": "encode reads the old and the new file from any std::io::Read: for readers that deliver in pieces of any size, with any finite number of interruptions, and then end, outcome and output are those for the bytes in memory. If the old file's reader fails, its error is returned, the new file's reader has not been touched and nothing was written; if the new file's reader fails, its error is returned and nothing was written. Altogether: old and new file from any readers, the patch through any writer, and from what arrived there through any reader to apply_patch makes the new file whenever encode reported success.", "quantifier": "all readers and writers that obey the contracts of std::io, all contents below 2^63 bytes, all configurations, all buffer sizes that read_to_end may choose, all mixes of builds", "why_tests_cant": "there are infinitely many ways to cut streams into pieces", "anchors": ["smdiff-encoder/src/lib.rs:encode", "smdiff-decoder/src/lib.rs:apply_patch"]}
{"id": "C86", "title": "how much room the readers make for operations", "statement": "The readers make room for as many operations as a section header announces before they read the first one. With a limit on the operations one buffer can be given room for, apply_patch does what it does without a limit or the program ends (allocation failure). It never ends with room for 2^33 operations; not on a patch without compressed sections that can be applied and has at most as many bytes as there is room for operations; not on any readable patch with room for twice its operations and for as many operations as it has bytes, in particular not on a patch written by encode with room for twice as many operations as the new file has bytes. But the room is not bounded by the size of a bad patch: seven bytes end the program in read_section, both iterators and apply_patch unless there is room for 4294967295 operations, where without a limit an error is reported.", "quantifier": "all limits, all patches, sources and sinks, all decompression libraries that read from left to right, both builds", "why_tests_cant": "a test sees an error on the test machine; which announced counts end the program depends on the memory, and only a proof shows that good patches are safe", "anchors": ["smdiff-reader/src/lib.rs:read_section, read_ops_no_comp, SectionIterator", "smdiff-decoder/src/reader.rs:SectionIterator", "smdiff-decoder/src/lib.rs:apply_patch"]}
{"id": "C87", "title": "the section iterators do not end after an error", "statement": "Both SectionIterators give None only after a section that says it is the last one, whatever the reader does and however often next is called. So out of any reader that holds a beginning of a patch but not all of it, and then stays at its end, they give the complete sections and then UnexpectedEof on every further call, for ever: a loop that skips errors never ends.", "quantifier": "all readers and numbers of calls; all uncompressed patches, all places to cut them", "why_tests_cant": "a test stops at the first error; that no later call gives None is a statement about infinitely many calls", "anchors": ["smdiff-reader/src/lib.rs:SectionIterator.next_borrowed, next_owned, Iterator", "smdiff-decoder/src/reader.rs:SectionIterator.next_borrowed, next_owned, read_header, Iterator"]}
{"id": "C88", "title": "merging keeps track of every byte", "statement": "The operations of a merged chain of patches take every byte of the last file from where the patches, applied one after the other, take it: a byte that the chain traces back to a place of the first file is copied from that very place, and a byte that some patch of the chain wrote out is written out in the merged operations. Hence the merged operations copy as many bytes as the last file has from the first one, their Adds and Runs hold all the others, and the first file is not needed exactly if none of its bytes is left.", "quantifier": "all chains of patches (any number of patches, sections, compressions), all first files (or none), all bytes of the last file", "why_tests_cant": "that the merged patch gives the right file on one source says nothing of which of equal bytes it copies; that holds for every chain and every byte", "anchors": ["smdiff-merger/src/lib.rs:Merger.new, merge, finish, get_exact_slice, deref_copy_o"]}
{"id": "C89", "title": "what exactly merging gives", "statement": "Merging a chain of patches gives exactly the pieces of the chain: cut the last file where an operation of one of the patches begins, follow every byte back to the first file or to the Add or Run that made it, and let copies keep the pieces of what they copy; the merged operations make these pieces, one operation for each, and no other legal list of operations that copies from the first file only does. So there are never more of them than the last file has bytes, but far more than the patches have together: whatever k (at most 65535) and m, there are patches with k and m operations that merge into m * k operations.", "quantifier": "all chains of patches (any number of patches, sections, compressions), all first files (or none); all k and m", "why_tests_cant": "how copies of copies are cut and re-addressed depends on every overlap of the operations of all patches", "anchors": ["smdiff-merger/src/lib.rs:Merger.new, merge, finish, get_exact_slice, find_controlling_op, deref_copy_o, expand_to"]}
{"id": "C90", "title": "transcoding joins neighbours in pairs only", "statement": "What exactly transcoding does to the operations of a patch: from left to right, two neighbouring Adds are one pair and two neighbouring Runs are one pair; a pair of Adds is joined (unless the first is full already) and a pair of Runs of the same byte is joined, cut at 65535 and 62 bytes; a single Add of one byte becomes a Run; all else stays. So at least half of the operations are left (of k short Adds exactly half, rounded up, not one, as documented), operations without neighbours of the same kind are left as they are, transcoding twice is not the same as once, but transcoding again and again with the same settings ends with a patch that is transcoded to itself, byte for byte, after at most operations * (bytes of the file + 1) + 1 times.", "quantifier": "all patches with any dictionary, all formats, segment sizes, working secondary compressions and numbers of repetitions", "why_tests_cant": "which operations end up joined depends on the whole sequence; that repetition ends needs a measure", "anchors": ["smdiff-merger/src/transcoder.rs:transcode, optimize_and_convert_ops, join_adjacent_adds, join_adjacent_runs, make_add_ops, make_run_ops"]}
{"id": "C91", "title": "in which order patches are merged does not matter", "statement": "Take a chain of patches that leads from one file to another. Merge any stretch of neighbouring patches of it first and write the result as a patch, with any format, segment size and (working) secondary compression; put this patch in the place of the stretch. The chain so shortened still leads to the same file, and merging all of it gives exactly the same operations - not just operations that mean the same - as merging the whole chain at once.", "quantifier": "all files, all chains of patches between them, all stretches, formats, segment sizes, secondary compressions and both build profiles", "why_tests_cant": "associativity is over all chains and all ways to cut them; the intermediate patch is written and read again", "anchors": ["smdiff-merger/src/lib.rs:Merger::new, Merger::merge, Merger::finish, SummaryPatch::write"]}
{"id": "C92", "title": "packaging is only packaging", "statement": "Format, section size and secondary compression never change the operations of a patch: with two configurations of the encoder that differ only in these, if encode succeeds with one it succeeds with the other, and extract_patch_instructions gives the same operations, positions and statistics for both patches; likewise for a merged chain written twice and for a patch transcoded twice. And two patches with the same operations are interchangeable: apply_patch does the same with both, for every dictionary and sink, also when it fails (same outcome, same content and position of the sink); transcode writes the same bytes for both; mergers made from or merged with them, and merged chains of them, are the same.", "quantifier": "all files, configurations, chains, patches, dictionaries and sinks, both build profiles, all (working) secondary compressions", "why_tests_cant": "it relates pairs of runs over all packagings", "anchors": ["smdiff-encoder/src/lib.rs:encode", "smdiff-merger/src/lib.rs:extract_patch_instructions, Merger::new, Merger::merge, SummaryPatch::write", "smdiff-merger/src/transcoder.rs:transcode", "smdiff-decoder/src/lib.rs:apply_patch"]}
{"id": "C93", "title": "which parts of the source can be found", "statement": "For a source that fits into the window (and a search that begins in the first half of it): nine bytes are entered into the table at the multiples of l_step that leave l_step + 9 bytes behind them (for steps below nine: up to a further multiple of the step nine bytes before the end). Whenever the encoder looks up nine target bytes the answer is exactly this: of the places entered that fall into the same bucket the first, with the match extended to both sides as far as the bytes agree (to the left up to one byte before the beginning of a file), if its nine bytes are those looked up, and nothing otherwise; so bytes at a place entered are found unless an earlier place with other bytes falls into the same bucket. If no place entered has nine bytes in common with the target, the patch contains no copy from the dictionary and can be applied with any dictionary or none; in particular a source shorter than l_step + 9 bytes (l_step + 18 for steps below nine) is never used, not even for itself. The number of buckets is a power of two, at most the number of steps in the source (or four) and at least a quarter of it: the capacity asked for is rounded down, not up.", "quantifier": "all sources that fit into the window, targets, settings of both matchers, states of the search, both build profiles, all secondary compressions", "why_tests_cant": "it characterises the answer in every state of every search", "anchors": ["smdiff-encoder/src/src_matcher.rs:add_start_positions_to_matcher, find_best_src_match, extend_src_match, build", "smdiff-encoder/src/hashmap.rs:BasicHashTable::new, get, insert, get_bucket_idx", "smdiff-encoder/src/encoder.rs:encode_inner", "smdiff-encoder/src/lib.rs:encode", "smdiff-decoder/src/lib.rs:apply_patch"]}
{"id": "C94", "title": "which repetitions in the target can be found", "statement": "For a search that begins at the first byte of the target: whenever the encoder looks for a repetition of the four target bytes at the current position, the answer is exactly this. Considered are the positions passed byte by byte so far (not those inside a match that was jumped over) that were entered under the same checksum: none if the newest entry of the bucket has another checksum, otherwise that one and the older ones less than prev_table_capacity bytes back. Of these, the first chain_check (a quarter of it once a match was found) more than four bytes back with the same four bytes compete; the first with a repetition of compress_early_exit bytes or more wins, otherwise the first of the longest. Until a search has started at least four bytes behind the one before, the checksum is off by that of the first four bytes of the target, so that a repetition can be found only at a distance that is a multiple of 2^(30-a), where 2^a divides the checksum of the first four bytes. Hence target matching alone (also as secondary compression) finds no repetition at all in a target of at most 2^(30-a) bytes in which no byte is repeated lazy_escape_len (90) times: the patch has no copies, and without four equal bytes in a row it is all Adds and larger than the target.", "quantifier": "all targets, settings of the target matcher, states of the search, both build profiles, all secondary compressions", "why_tests_cant": "it characterises the answer in every state of every search, through table, chain and rolling checksum", "anchors": ["smdiff-encoder/src/trgt_matcher.rs:find_best_trgt_match, store, build", "smdiff-encoder/src/hashmap.rs:ChainList, BasicHashTable", "smdiff-encoder/src/encoder.rs:encode_inner", "smdiff-encoder/src/writer.rs:section_writer", "smdiff-encoder/src/lib.rs:encode"]}
{"id": "C95", "title": "sources larger than the window", "statement": "For a source of any size (the product of the lengths below 2^64): with the window max_src_win_size (64 MiB by default) rounded up to a power of two and to a MiB, the answer to a lookup of nine target bytes is exactly this: of all places entered by the searches started so far, the newest one in the same bucket, if its nine bytes are those looked up, with the match extended as far as possible; otherwise nothing. Windows are entered only where a search starts: in the first half window of the target the beginning of the source; after that, when half a window of the target has gone by since the last one, the multiples of l_step half a window to either side of the corresponding place of the source. So there are at most one window per half window of the target, and one more. A search starts again only after a match of lazy_escape_len bytes or more: for a target of up to half a window (32 MiB) only the first window of the source counts, and a source that has nothing in common with the target there yields a patch without dictionary copies, however much the rest has in common; without target matching and without runs of lazy_escape_len bytes this is so for a target of any length.", "quantifier": "all sources, targets, settings and states of the search, both build profiles", "why_tests_cant": "it characterises the answer in every state of every search over all histories of windows; sources above 64 MiB are out of reach of unit tests", "anchors": ["smdiff-encoder/src/src_matcher.rs:add_start_positions_to_matcher, calculate_window_range, SrcMatcherConfig::build, find_best_src_match, store", "smdiff-encoder/src/hashmap.rs:BasicHashTable", "smdiff-encoder/src/encoder.rs:encode_inner", "smdiff-encoder/src/lib.rs:encode"]}
{"id": "C96", "title": "repeated bytes are not stored", "statement": "With source matching and a source, or with target matching, whatever the settings: in a patch that encode writes no Add has four equal bytes in a row, except in its first 6 and its last 44 bytes, so no Add contains 51 equal bytes in a row. With target matching alone (and no naive test that applies) no Add contains as many equal bytes in a row as the larger of lazy_escape_len and 8. The patch for n >= 5 equal bytes (unless the naive tests apply) consists of ceil(n/62) Run operations if n < 372, otherwise of three Run operations and doubling copies from the output; without secondary compression it has at most 163 + 41 (n/65535) bytes.", "quantifier": "all sources, targets, settings and codecs, both build profiles; any number of equal bytes anywhere in the target", "why_tests_cant": "it must hold for every target and every place in it, after every history of matches found before", "anchors": ["smdiff-encoder/src/encoder.rs:encode_inner, InnerEncoder", "smdiff-encoder/src/op_maker.rs:translate_inner_ops, filter_inner_ops, make_run_ops", "smdiff-encoder/src/lib.rs:encode"]}
{"id": "C97", "title": "what is stored is new", "statement": "With source matching and a source that fits into the window (64 MiB by default), and no naive test that applies: in a patch that encode writes, leaving out its first 6 and its last 48 bytes, no nine bytes in a row of an Add are those at an entered place of the source (a multiple of l_step), unless an earlier entered place with other bytes belongs into the same bucket of the table. So if no two places with different bytes belong into the same bucket, no Add contains l_step + 54 bytes in a row of the source, except from its last 3 l_step + 22 bytes.", "quantifier": "all sources, targets, settings and codecs, both build profiles", "why_tests_cant": "it must hold for every piece of every source at every place of every target, after every history of matches", "anchors": ["smdiff-encoder/src/src_matcher.rs:find_best_src_match, store, SrcMatcherConfig::build", "smdiff-encoder/src/encoder.rs:encode_inner", "smdiff-encoder/src/op_maker.rs:translate_inner_ops, filter_inner_ops", "smdiff-encoder/src/lib.rs:encode"]}
{"id": "C98", "title": "what is stored was not stored before", "statement": "With target matching (chain_check of at least 1), with or without source matching, and no naive test that applies: in a patch that encode writes, if four bytes stored in an Add are repeated later (more than 4 bytes and less than the reach of the chain further on) and stored again, leaving out the first 6 and the last 44 bytes of every Add, then four other bytes between the two with another checksum belong into the same bucket of the table. This holds behind any Run or Copy from the output of lazy_escape_len bytes or more, and in the whole target if the checksum of its first four bytes is 0, as for four zeros (otherwise repetitions are not found before the first such operation, see C94).", "quantifier": "all sources, targets, settings and codecs, both build profiles; all pairs of positions of the target", "why_tests_cant": "it must hold for every repetition in every target after every history of matches", "anchors": ["smdiff-encoder/src/trgt_matcher.rs:find_best_trgt_match, store, TrgtMatcherConfig::build", "smdiff-encoder/src/hashmap.rs:BasicHashTable, ChainList", "smdiff-encoder/src/encoder.rs:encode_inner", "smdiff-encoder/src/op_maker.rs:translate_inner_ops", "smdiff-encoder/src/lib.rs:encode"]}
{"id": "C99", "title": "one edit costs little", "statement": "Without secondary compression, with source matching, a source that fits into the window, lazy_escape_len of at least 10 and no naive test that applies: if source and target have a common end that can be recognised (there is a place in it, 8 or more bytes behind its beginning, at which the source is entered into the table, that does not begin with four equal bytes, such that no nine bytes in a row of the common end up to there occur anywhere else in the two files, and no place entered before belongs into the same bucket), then the patch has at most 13 bytes for each target byte before the common end, 41 for each 65535 bytes of the target, and 254. If they have in addition a common beginning of lazy_escape_len bytes or more, the first four not all equal (and the source 18 + 2 l_step bytes), at most 13 bytes for each target byte between the two, 41 for each 65535 bytes, and 410 - with or without target matching and whatever other matches the search finds.", "quantifier": "all sources and targets with such ends, all configurations without secondary compression, both builds, every successful encode", "why_tests_cant": "it must hold for every pair of files and every other match they contain", "anchors": ["smdiff-encoder/src/encoder.rs:encode_inner", "smdiff-encoder/src/src_matcher.rs:find_best_src_match, SrcMatcherConfig::build", "smdiff-encoder/src/hashmap.rs:BasicHashTable", "smdiff-encoder/src/op_maker.rs:translate_inner_ops", "smdiff-encoder/src/lib.rs:encode"]}
{"id": "C100", "title": "any number of edits costs little each", "statement": "Without secondary compression, with source matching, a source that fits into the window, lazy_escape_len of at least 10 and no naive test that applies: take any list of pieces of the source that occur in the target, in any order and at any places (moved, repeated edits, swapped blocks), each of which can be recognised (there is a mark in it, 8 or more bytes behind its beginning and 10 or more before its end, at which the source is entered into the table, that does not begin with four equal bytes, such that no nine bytes in a row of the piece up to there occur anywhere else in the two files, and no place entered before belongs into the same bucket). Then the patch has at most 13 bytes for each target byte that belongs to none of the pieces, 733 for each piece, 41 for each 65535 bytes of the target, and 14 - with or without target matching, whatever other matches the search finds and however they overlap the pieces.", "quantifier": "all sources and targets, all lists of recognisable pieces, all configurations without secondary compression, both builds, every successful encode", "why_tests_cant": "it must hold for every pair of files, every number of edits and every other match the files contain", "anchors": ["smdiff-encoder/src/encoder.rs:encode_inner, clear_existing_ops", "smdiff-encoder/src/src_matcher.rs:find_best_src_match, SrcMatcherConfig::build", "smdiff-encoder/src/hashmap.rs:BasicHashTable", "smdiff-encoder/src/op_maker.rs:translate_inner_ops", "smdiff-encoder/src/lib.rs:encode"]}
{"id": "C101", "title": "what packaging costs", "statement": "Without secondary compression, format and segment size hardly matter for the size of a patch: the patches that encode writes with two configurations that differ only in these differ by at most 11 bytes, and 94 more for each 65536 bytes of the new file; so do two patches that are written from the same merged chain, and two that the same patch is transcoded to. Transcoding a patch whose sections are not compressed, whoever wrote it, adds at most one byte for each of its operations, 15 for each of its sections and 64 for each 65536 bytes of the new file. (So the expectation that transcoding, which is documented to optimise the operations, never makes a patch larger is refuted: two Adds of 32 bytes become one byte longer when they are joined.)", "quantifier": "all files, all configurations without secondary compression, all chains of patches, all patches that apply, all formats and segment sizes, both builds", "why_tests_cant": "it must hold for every list of operations and every way to cut it into sections, as addresses are relative to the section", "anchors": ["smdiff-writer/src/lib.rs:write_ops, make_sections", "smdiff-encoder/src/lib.rs:encode", "smdiff-merger/src/lib.rs:SummaryPatch::write", "smdiff-merger/src/transcoder.rs:transcode, optimize_and_convert_ops", "smdiff-reader/src/lib.rs:read_ops_no_comp"]}
{"id": "C102", "title": "when merging costs no more than its patches", "statement": "Merging patches that do not copy from their own output, and of which each but the first copies no byte of its predecessor's output more than m times, gives at most ((n1*m+n2)*m+n3)*m+... operations if the patches hold n1, n2, n3, ... operations, and at most as many literal bytes as the same formula gives for theirs; for m = 1 these are the sums. The merged patch, written without compression, needs at most those literal bytes, 13 bytes for each of those operations, 14 bytes and 64 for each 65536 bytes of the new file; and if no byte is copied twice and the patches are uncompressed, at most 7 times as many bytes as the patches together, and 64 for each 65536 bytes of the new file. (Without the condition merging can blow up, see C89-C92.)", "quantifier": "all chains of patches that apply one after the other, made by whatever encoder, all m, all formats and segment sizes, both builds", "why_tests_cant": "it must hold for every chain of patches; a few merges show nothing about the worst case", "anchors": ["smdiff-merger/src/lib.rs:merge, merge_patches, SummaryPatch::write, deref_copy_o", "smdiff-merger/src/lib.rs:extract_patch_instructions, find_dict_copies, expand_dict_copies"]}
{"id": "C103", "title": "what turning source or target matching off means", "statement": "With target matching off, whatever else is configured, every copy from the output that encode writes copies the beginning of at least 372 equal bytes of the new file (it lengthens a run); so a new file without 372 equal bytes in a row is encoded without copies from the output. With source matching off, and without naive tests (or with a new file that is not longer than the old one, or with target matching off too), the patch copies nothing from the old file, and applying it with any source, or none, gives the new file. (Both settings mean less than they seem to: with target matching off, the default, long runs are written with copies from the output all the same, and with source matching off the naive tests still copy from the old file, so that the patch cannot be applied without it.)", "quantifier": "all files below 2^63 bytes, all configurations with one of the matchers off, all compression libraries that give back what they compressed, both builds", "why_tests_cant": "the search is a loop over every position of the new file with a dozen states; it must be shown that no path of it pushes a match of the other kind", "anchors": ["smdiff-encoder/src/lib.rs:encode, EncoderConfig", "smdiff-encoder/src/encoder.rs:encode_inner", "smdiff-encoder/src/op_maker.rs:translate_inner_ops", "smdiff-encoder/src/src_matcher.rs:SrcMatcher", "smdiff-encoder/src/trgt_matcher.rs:TrgtMatcher"]}
{"id": "C104", "title": "what converting a VCDIFF gives, and what it costs", "statement": "A well-formed VCDIFF instruction stream without long sequences (see C54) is converted to a patch that holds exactly these operations, in order: each Add and each Copy cut into pieces of at most 65535 bytes, each Run into pieces of at most 62, addresses inside a window translated to the whole file, and each self-overlapping Copy of k bytes with period d cut into pieces of d bytes (the last may be shorter) that all copy the beginning of the period. So the number of operations is the sum of the lengths divided by 65535, 62 or d, rounded up. Every section but the last makes at least 16711681 bytes. The patch needs at most the literal bytes, 13 bytes for each operation and 14 for each 16711681 bytes of output (and 14 more), and at least 2 bytes for each operation and 3 for each section. It can be merged with other patches, and transcoded to any format and compression. (Therefore a self-overlapping Copy with a short period can make the patch larger than the file: two instructions that repeat one byte n times become n+1 operations and at least 2n+5 bytes.)", "quantifier": "all well-formed instruction streams whose file is below 2^63 bytes and that have no long sequence, all sources, all compression libraries for the tools, both builds", "why_tests_cant": "the conversion keeps state across windows and cuts operations in loops; the operations must be right for every length, address and window", "anchors": ["smdiff-vcdiff/src/lib.rs:convert_vcdiff_to_smdiff"]}
{"id": "C105", "title": "which patches can be merged, and what happens with the others", "statement": "For patches that can be read, whose operations make at least one byte each and whose copies end within 64-bit addresses: `Merger::new` succeeds exactly if there is some file the patch applies to (and, in debug builds, it copies from the dictionary or not at all), and panics otherwise. `merge` succeeds exactly if there is some file the given patch applies to and what has been merged so far applies to every file as long as the one that patch makes, and panics otherwise; it then has the length it had and does at once what both did one after the other, for every dictionary the patch applies to. Two patches can therefore be merged exactly if the second contains no copy at all or there are files that the first and then the second apply to. A patch that cannot be read is reported as the error it gives when it is read, never a panic. With three patches a misfit can stay hidden: if the third does not use the part of the second that does not fit the first, merging gives a patch although the first two cannot be applied one after the other.", "quantifier": "all patches that can be read, fitting or not, all results a program can get by merging such patches in any order and number, all compression libraries, both builds", "why_tests_cant": "the condition is an exact one (if and only if) over all pairs of patches, and the state of the merger is the result of any number of merges before", "anchors": ["smdiff-merger/src/lib.rs:Merger", "smdiff-merger/src/lib.rs:get_exact_slice", "smdiff-merger/src/lib.rs:deref_copy_o"]}
{"id": "C106", "title": "encoding anew or transcoding", "statement": "Whether a patch is encoded with one format, segment size and secondary compression and then transcoded to others, or encoded with the others at once, makes no difference: the result is the same, byte for byte (with the segment size encode uses, which is at least 65535 and at most 16777215) - provided that no two neighbouring Runs in the patch repeat the same byte (unless the first has 62 bytes) and that no Add has a single byte. Of two neighbouring Adds in a patch from encode the first is always full (65535 bytes). The same holds for merged patches, if in addition neighbouring Adds are like this. The proviso is needed: with its default settings encode may write one run of a byte as two neighbouring Runs, and transcoding with the same settings joins them.", "quantifier": "all sources and targets below 2^63 bytes (targets not empty), all pairs of configurations that differ in packaging only, all compression libraries that work, both builds; all chains of patches", "why_tests_cant": "two different programs must write the same bytes for all inputs and settings", "anchors": ["smdiff-merger/src/transcoder.rs:transcode", "smdiff-encoder/src/encoder.rs:encode", "smdiff-encoder/src/op_maker.rs:make_add_ops", "smdiff-merger/src/lib.rs:SummaryPatch"]}
{"id": "C107", "title": "no patch makes the tools hang", "statement": "Reading, merging and transcoding end for arbitrary input bytes, in both builds: reading the operations of a patch, starting a merge, merging any bytes into any merger, merging whole chains, and transcoding with any format, segment size and secondary compression return (with a result, an error or a panic) if the compression libraries return and read a compressed section as the same whatever follows it (with the built-in secondary compression transcoding is covered for patches of less than 2^32 operations or without empty copies). Converting VCDIFF ends for every sequence of messages, well formed or not, in which no self-overlapping copy has distance zero. In builds without debug assertions every patch that can be read and has an operation (less than 2^32, or no empty copies) is transcoded, whatever addresses its copies have; builds with debug assertions can panic on such a patch.", "quantifier": "all byte strings as patches, all mergers, all chains, all formats, sizes and compressions, all message streams without a copy from distance zero, all writers that return, both builds", "why_tests_cant": "hostile patches cannot be enumerated, and a test cannot tell a loop that does not end from a slow one", "anchors": ["smdiff-merger/src/lib.rs:extract_patch_instructions", "smdiff-merger/src/lib.rs:Merger", "smdiff-merger/src/transcoder.rs:transcode", "smdiff-vcdiff/src/lib.rs:convert_vcdiff_to_smdiff"]}
{"id": "C108", "title": "any workflow of tools", "statement": "However a patch was made with the tools, applying it to the version it starts from, in either build, gives the version it leads to. Made with the tools means: encoded, converted from well-formed VCDIFF, transcoded from a patch made with the tools, or written after merging patches made with the tools that lead from version to version, in any order and any nesting, each run with its own build, format, section size, secondary compression and writer position; patches of other tools that apply and have no empty copies may take part. One can always go on: each such patch can be transcoded and each sequence of them merged and the result written, and that gives such a patch again. So two ways to make the same patch, from the same version, lead to the same version.", "quantifier": "all histories of tool runs (trees of any depth and width), all versions, all configurations, formats, sizes, compressions, both builds for each run", "why_tests_cant": "workflows nest without bound; each round-trip test covers one pair of tools with one configuration", "anchors": ["smdiff-encoder/src/lib.rs:encode", "smdiff-merger/src/lib.rs:Merger", "smdiff-merger/src/transcoder.rs:transcode", "smdiff-vcdiff/src/lib.rs:convert_vcdiff_to_smdiff", "smdiff-decoder/src/lib.rs:apply_patch"]}
{"id": "C109", "title": "a patch does not notice which source it is given", "statement": "A patch is a recipe: for every patch and every length there is one list, whose entries are bytes or places in the source, such that apply_patch, given any source of that length, ends in the same way (Ok, the same error, a panic), at the same position, and leaves what the list reads from that source; the list is unique. So no patch can notice that a source of the right length is the wrong one. A patch that applies to one source applies to every source that is at least as long and gives a file of the same length from it, in which exactly those bytes are wrong that are taken from a place where the two sources differ; this includes patches that were encoded, and all others made with the tools. A chain of patches goes through from any other first file of the same length as well, and the merged patch gives from it what the chain gives.", "quantifier": "all patches (any bytes, valid or not), all sinks, all pairs of sources; all chains of patches", "why_tests_cant": "a test of a wrong source shows what one patch does with it; that no patch whatever can tell, and which bytes come out wrong, is a statement about all of them", "anchors": ["smdiff-decoder/src/lib.rs:apply_patch", "smdiff-encoder/src/lib.rs:encode", "smdiff-merger/src/lib.rs:Merger"]}
{"id": "C110", "title": "what was read can be written back - once its header is put right", "statement": "Every interleaved section that read_section delivers can be handed to the writer just as it was delivered, and what is written reads back as the same operations and the same header, unless it stands for more than 16777215 bytes: the reader accepts such a section, the writer always refuses it with InvalidData. A segregated section that adds anything is never accepted back as delivered, since its num_add_bytes was doubled by the reader: InvalidData, or a panic in a debug build where twice the add bytes exceed the output. With num_add_bytes put right, a section that the bundled writer wrote gives back exactly its bytes, in both formats. Whole patches, compressed or not: read all sections with the decoder's iterator, put the headers right (no compression, number of add bytes), write them in either format; this succeeds if no section is too large, and apply_patch treats the result exactly like the original, for every source and every sink. As delivered they cannot be written back: the sections of a compressed patch keep its compression in their header, so that the file labels plain operations as compressed and cannot be read.", "quantifier": "all bytes that can be read as sections or patches, all libraries that keep their framing, both formats, all combinations of builds, all sources and sinks", "why_tests_cant": "a test writes back the sections it made; that this works for every section anybody may have written, and exactly where it does not, needs the whole grammar", "anchors": ["smdiff-reader/src/lib.rs:read_section", "smdiff-writer/src/lib.rs:write_section_header", "smdiff-writer/src/lib.rs:write_ops", "smdiff-decoder/src/reader.rs:SectionIterator"]}
{"id": "C111", "title": "a patch carries no check of its own: stored bytes can be changed in place", "statement": "In a patch of uncompressed sections every byte that an Add or a Run stores stands somewhere in the file as it is. When it is replaced there by any other byte, apply_patch succeeds with every dictionary with which it did before, and gives a file of the same length which has the new byte at certain places - at least one, and the same for every new byte - and is the old file elsewhere. Conversely every byte of the output that was not copied from the dictionary has such a byte in the patch. So for what encode writes without secondary compression: each byte of the target comes from a place of the dictionary or can be changed, unnoticed, to any other by changing one byte of the patch; without a dictionary this is so for all of them. There are damages of one byte that no reader can notice: whoever needs to notice them has to keep a checksum himself.", "quantifier": "all patches of uncompressed sections, all stored bytes and all values to replace them, all dictionaries, all targets and configurations without secondary compression", "why_tests_cant": "a test changes one byte of one patch; that no change of any stored byte of any patch is ever noticed, and exactly what it does to the output, needs the whole grammar and the flow of every byte", "anchors": ["smdiff-decoder/src/lib.rs:apply_patch", "smdiff-encoder/src/encoder.rs:encode"]}
{"id": "C112", "title": "the counts of a section guard each other", "statement": "Let the bytes of some operations stand behind a section header, with anything behind them. If the section is read, the output size that the header states is exactly the sum of the lengths of the operations counted: a header that differs in the output size only is refused; one that differs in the number of operations only is refused too, unless the operations left out are all empty or those read too much are (which then come from the bytes behind the section; at the end of the file it is always refused). How a segregated header splits the output size into add bytes and others is never looked at: every split with the same sum gives the same operations. When the lengths of operations are changed, the section is refused as soon as their sum is another one. Behind sections that are fine, apply_patch reports the section that is refused and leaves in the sink exactly what the sections before it stand for. (A release build adds modulo 2^32: a header that counts too many operations is covered up to 65537 of them.)", "quantifier": "all sections of the grammar in both formats, all other headers of the same format, all bytes behind, both builds, all patches of uncompressed sections before it, all sources", "why_tests_cant": "a test damages one count of one patch; that no other single count passes, whatever stands behind the section, needs an induction over the operations that are read", "anchors": ["smdiff-reader/src/lib.rs:read_section", "smdiff-reader/src/lib.rs:read_ops_no_comp", "smdiff-decoder/src/lib.rs:apply_patch"]}
{"id": "C113", "title": "joining patches", "statement": "In every patch there is one byte in which the highest bit can be set, and then any other patch can be appended: the result is one patch of all the sections. The operations of two files, one behind the other, are operations for the concatenation of both files when the copies from the output of the second are moved by the length of the first. So apply_patch on two patches of uncompressed sections joined in this way gives the first file followed by the second, when the second has no copies from the output. In particular a file can be encoded in pieces: when every piece is encoded by itself with the same dictionary, without target matching, and no piece after the first has 372 equal bytes in a row, the patches joined give the whole file; also with secondary compression, when the library gives back what was compressed whatever follows and no piece is empty. With such a run it fails (the encoder lengthens it by copies from the output): a witness is a piece of one byte followed by 372 times the byte 7.", "quantifier": "all patches of the grammar, all operations, all lists of pieces, all dictionaries, all configurations without target matching, every faithful library, both builds of writer and reader", "why_tests_cant": "tests never join patches; that every list of pieces can be joined needs an induction over the sections and over the pieces, and a statement about every operation the encoder can emit", "anchors": ["smdiff-decoder/src/lib.rs:apply_patch", "smdiff-writer/src/lib.rs:write_section_header", "smdiff-encoder/src/encoder.rs:encode"]}
{"id": "C114", "title": "how much of the source is remembered", "statement": "The encoder remembers the source only at few places. For a source of n bytes that fits into the window, with a step of l bytes, there is a set of at most max(4, 2^a/2^b) places (n <= 2^(a+1), 2^b < 2l), the same for every target, such that every copy from the source that the source matcher can ever propose in any encoding begins with nine bytes at one of these places. All other entered places are lost: a target that has nine bytes in common with the source only away from the remembered places gets a patch that does not use the source at all. When no nine bytes occur twice in the source, a piece of the source of up to 2l+7 bytes that contains a lost place and no other entered one is encoded as if it did not occur there. At default settings (l = 18, source of 129 bytes to 64 MiB) at least (n-9)/18 - (n-1)/32 places are lost, about 7/16 of all entered places.", "quantifier": "all sources that fit into the window, all targets, all configurations of the source matcher, all target matchers and naive tests as stated, all reachable states of the encoder, both builds, every faithful library", "why_tests_cant": "tests compare sizes of a few files; that the set of places does not depend on the target and that all others are never found is a statement about every target and every state of the encoder", "anchors": ["smdiff-encoder/src/lib.rs:encode", "smdiff-encoder/src/src_matcher.rs:SrcMatcherConfig::build", "smdiff-encoder/src/hashmap.rs:BasicHashTable"]}
{"id": "C115", "title": "parts of a patch", "statement": "A patch can be taken apart. In every patch that can be applied and has more than one section, whatever its compression, clearing one bit gives a patch for the first part of the file. An uncompressed patch can be cut off behind any section, clearing one bit before the cut, and then gives the file up to where this section ends. Sections that do not copy from the output are independent: put together in any order and as often as wanted, with one bit set or cleared in each, they are a patch that gives the parts of the file in this order. Everything encode writes, with any secondary compression by a faithful library, is a sequence of sections each standing for at most 16777215 bytes of the file; the first k of them, with one bit put right in each, give the first k parts of the file; and without target matching, when no 372 bytes in a row are equal, any selection of them in any order gives the parts in this order. A section with copies from the output cannot stand alone. When the bit of the last section of anything encode writes is set and nothing follows, the whole file is written and then an unexpected end is reported.", "quantifier": "all patches, all cuts, all selections and orders of sections, all dictionaries, all targets and configurations, every faithful library, both builds", "why_tests_cant": "tests apply whole patches only; that every selection of sections works is a statement about all lists of indices and all patches", "anchors": ["smdiff-decoder/src/lib.rs:apply_patch", "smdiff-decoder/src/reader.rs:SectionIterator", "smdiff-encoder/src/lib.rs:encode"]}
{"id": "C116", "title": "as few sections as possible", "statement": "Every section has to be held in memory by whoever applies the patch and costs a header and fresh addresses. make_sections, and with it encode, transcode and the writing of merged patches, cuts the operations (and convert_vcdiff_to_smdiff its own, with the limit 16777215) into as few sections as the limit allows: however the same operations are distributed, in order, over sections of at most the limit, at least as many sections are needed. No section but the last has room for 65535 bytes more, so a file of n bytes needs at most n/(limit-65534) + 1 sections (with the default limit of 16777215 bytes: one for each 16.7 million bytes, and one). A larger limit never gives more sections.", "quantifier": "all lists of operations of at most 65535 bytes, all limits, all other ways to cut them; all targets, dictionaries, configurations, patches to transcode and chains to merge", "why_tests_cant": "that nothing else needs fewer sections is a statement about all ways to cut all lists of operations", "anchors": ["smdiff-writer/src/lib.rs:make_sections", "smdiff-encoder/src/lib.rs:encode", "smdiff-merger/src/lib.rs:Merger", "smdiff-merger/src/transcoder.rs:transcode", "smdiff-vcdiff/src/lib.rs:convert_vcdiff_to_smdiff"]}
{"id": "C117", "title": "as few operations as possible", "statement": "No patch, made by whatever program from whatever source and in whatever format, describes a file of n bytes by fewer than n/65535 (rounded up) operations. encode reaches this number for a file that is the beginning of its source (with the source matcher; every operation is then a copy from the source) and for every file when both matchers are off. The patch for the beginning of the source is also near the best in bytes: at most 6.75 times as large as any uncompressed patch for that file, up to a constant. transcode keeps the property: from a patch with as few operations as possible it makes another one.", "quantifier": "all sources, files (not starting with four equal bytes, at least ten bytes, in a source of at least 18 + 2 steps), configurations and compressors that work; all rival patches", "why_tests_cant": "the rivals are all byte strings that are patches for the file", "anchors": ["smdiff-encoder/src/lib.rs:encode", "smdiff-encoder/src/src_matcher.rs:SrcMatcherConfig", "smdiff-encoder/src/op_maker.rs:translate_inner_ops", "smdiff-encoder/src/op_maker.rs:make_copy_ops", "smdiff-encoder/src/op_maker.rs:make_add_ops", "smdiff-merger/src/transcoder.rs:transcode"]}
