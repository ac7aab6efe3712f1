# Formal model of ThinkingJoules/smdiff in Lean 4 — design

## 1. What is modelled

The whole workspace is small, sequential, safe Rust, so the model follows it function by function
(every Lean definition cites file and lines in `/repo`).

| Rust                              | Lean module (`lean/Verif/…`)  |
|-----------------------------------|-------------------------------|
| std::io bits used (Read on a byte source, Write, Cursor) | `Basic.lean`, `Cursor.lean` |
| the reading side over any `Read` (pieces, interruptions, errors), `read_exact`, `BufReader` | `Model/Streams.lean` |
| smdiff-common/src/lib.rs          | `Model/Common.lean`           |
| smdiff-writer/src/lib.rs          | `Model/Writer.lean`           |
| smdiff-reader/src/lib.rs          | `Model/Reader.lean`           |
| smdiff-decoder/src/{lib,reader}.rs| `Model/Decoder.lean`          |
| smdiff-encoder/src/hasher.rs, hashmap.rs | `Model/Hash.lean` |
| functions that only their own unit tests or nothing at all call (`size_overhead`, `calculate_default_win_size`) | `Model/Unused.lean` |
| smdiff-encoder/src/src_matcher.rs, trgt_matcher.rs, `Ranger` of lib.rs | `Model/Matchers.lean` |
| smdiff-encoder/src/encoder.rs, op_maker.rs | `Model/EncodeInner.lean`, `Model/OpMaker.lean` |
| smdiff-encoder/src/lib.rs, writer.rs | `Model/Encoder.lean`       |
| smdiff-merger/src/lib.rs, transcoder.rs | `Model/Merger.lean`, `Model/Transcoder.lean` |
| smdiff-vcdiff/src/lib.rs          | `Model/Vcdiff.lean`           |

The specifications are separate modules that do not use the model's functions, only its data types (operations,
headers, configurations):

| Module | Content |
|---|---|
| `Spec.lean` | meaning of operations and of whole patches (spec.md §3), byte grammar (spec.md §2, §4, §5, with the op-byte bit order the code and its tests really use), legal operations |
| `SpecComp.lean` | the law assumed of the compression libraries; meaning of patches with secondary compression |
| `SpecEnc.lean` | what a candidate match claims; the situations in which the encoder panics |
| `SpecHash.lean` | mathematical checksums; direct-mapped table and chain as histories |
| `SpecRun.lean`  | reachable states of the search |
| `SpecMerge.lean`| positions, composition of patches |
| `SpecVcdiff.lean` | meaning of a VCDIFF instruction stream (RFC 3284), the streams that cannot be converted |
| `SpecEnd.lean` | whole workflows: what "encoded" and "a history of versions" mean |

Property theorems live in `Verif/Props/*.lean`, apart from helper lemmas (`Verif/Lemmas/*.lean`).

## 2. Conventions

* `Outcome α = ok a | err e | panic | diverge`.  A Rust `Result` becomes `ok/err`, every reachable
  `panic!`, failed `assert!`, out-of-range index, `unwrap` on `None` or checked-arithmetic overflow
  becomes `panic`.  `diverge` is "fuel exhausted": used for loops whose termination is itself a
  property (C30).
* `IOm σ α = σ → Outcome α × σ`: code acting on a stream; the state survives errors and panics, so
  partial effects are observable (C22, C59).
* Build profile: functions whose behaviour depends on overflow checks / `debug_assert!` take
  `dbg : Bool` (`true` = cargo dev profile, `false` = release).  Every theorem says which it is about
  or quantifies over `dbg`.
* `u8/u16/u32/u64` on the wire and in structs are `UInt8 … UInt64` (wrapping, `as` casts truncate).
  `i64` is `BitVec 64` read as two's complement.  `usize` is `Nat` (64-bit platform; in-memory sizes
  below 2^63), except hashes, which are `UInt64`/`UInt32`.
* `Vec<u8>`, slices and readers are `List UInt8`.  A reader is the list of bytes not yet read.
  When `read_exact` fails std leaves the position unspecified; the model consumes everything.
* The `Op<A: AddOp>` generic is instantiated once: an Add carries its bytes.
* Capacity reservations, `dbg!`, `println!`, timing code are not modelled.

## 3. Trusted base

* Lean 4.33.0 kernel; axioms at most `propext`, `Classical.choice`, `Quot.sound` (listed by
  `#print axioms` — see section 5).
* The reading of the Rust sources by the author (the code is not run).  As independent evidence for it, `lean/Verif/Conformance.lean`
  gives the model the inputs of all 38 unit tests of /repo and compares, in the kernel, with the results that the author of /repo expects.  All agree;
  the three of smdiff-vcdiff agree up to the header, which their expected bytes still have in an older format (defect 38).
* std: `Read/Write/Seek` of an in-memory cursor, slice and iterator functions, `binary_search_by`
  (modelled by the halving loop of std since Rust 1.82), integer semantics.
* zstd (`ruzstd`/`zstd`) and brotli (`brotlic`) are a parameter `Codec`; decompression is lazy, as
  in the libraries: a reader opened on a source has data, an outcome of reading behind the data, and, depending on how many
  bytes were read, the part of the source not yet taken and (brotli) the outcome of `into_inner`.  Theorems that involve the
  libraries assume explicit laws (`SpecComp.lean`): `Faithful` (data that is not empty comes back, and the frame is consumed
  when its last byte was read), `Framed` (from left to right), `Returns` (no call runs forever).  For empty data nothing is
  assumed, because nothing is read of it; C77 is about that case.
* `vcdiff_reader`/`vcdiff_common` are external; the model takes the already parsed message stream.
* `println!`/`dbg!` output and timing is not modelled; `usize` is unbounded (`Nat`), i.e. sums of lengths of data held in
  memory do not overflow 64 bits (the target matcher's `next_power_of_two` of 1.5 times the target's length: targets below
  2^62 bytes).  Where `usize` arithmetic really can overflow - the source window (`usz`, `nextPow2U` in
  `Model/Matchers.lean`) - debug panics and release wrapping are modelled.
* std's `read_exact` loop and `BufReader` (`Model/Streams.lean`): modelled by hand after std; a reader that is interrupted
  forever is not considered.
* Not modelled: smdiff-testing (harness), memory limits other than that of C86, performance.

## 4. Plan per property

(R) round trip / algebraic, (I) invariant, (F) refinement to the spec, (N) false as stated: prove the negation on a
concrete witness and the strongest true part (`…_partial`).

| Property | Model | Proof |
|---|---|---|
| C01–C03 | varint writer/reader on `UInt64` bit operations | (R) induction on the value / byte list; minimality by length-value bound |
| C04 | address deltas on `UInt64`/`BitVec 64` | (R) case split on the four ranges, wrap-around by `omega` on `toNat` |
| C05–C08 | op and section writer/reader vs. grammar `Spec.OpEnc`, `Spec.SectionEnc` | (F) writer ⊆ grammar, reader = grammar both ways; round trip is the composition |
| C09 | same, all outcomes | (N) panic witnesses in debug; never panics in release; debug-safe under exclusion of the causes |
| C10–C12 | header and `write_ops` | (R), exact outcome characterisation |
| C13 | writer asserts | decision logic, all positions |
| C14 | reader post-condition | (I) induction on op count |
| C15 | header after reading | (N) exact formula + negation |
| C16, C17 | `make_sections` | (I) loop invariant over the op list |
| C18, C19 | `SectionIterator` | (F) induction over sections; history induction |
| C20–C26 | `apply_patch` on a cursor sink vs. `Spec.exec` | (F) simulation: cursor = output so far; state-preserving errors |
| C27, C28 | full encoder + decoder | composition of C31, C32, C33, C16, C18, C20 |
| C29 | full encoder, all outcomes | (N) witnesses by kernel evaluation; positive theorem for configurations not hitting the defects |
| C30 | fuel-indexed loops | fuel bound for main loop; chain walk strictly decreasing; (N) divergence witness for every fuel |
| C31 | `encode_inner` | (I) loop invariant over `EncSt` |
| C32, C33 | `translate_inner_ops` | (I) zipper invariant; executes to target |
| C34 | `make_run_ops` | induction over the copy loop |
| C35, C36 | sizes | from C16; counting |
| C37 | hashers (those for 64-bit and those for 32-bit targets) | (R) ring reasoning in `UInt64`/`UInt32` |
| C38 | hash invariant of the loop | (I) for the source matcher; (N) for the target matcher |
| C39, C40 | hash table / chain | (I) over insertion histories |
| C41–C43 | merger primitives | binary search correctness; slice semantics; induction over list |
| C44–C48 | `Merger` | (F) composition theorem; chain by induction; (N) for debug `new` |
| C49, C50 | extraction | exact formulas; (N) for Stats |
| C51–C53 | transcoder | meaning-preserving rewriting; (N) on the empty patch |
| C54, C55 | VCDIFF conversion | simulation over the message stream; (N) for long periods |
| C56 | `Ranger` | arithmetic |
| C57 | source windows | arithmetic + invariant |
| C58 | empty target | evaluation for all configurations |
| C59 | writer with limited room | simulation between unlimited and limited writer |
| C60–C63 | format corner cases | (N) witnesses and exact statements |
| C64 | `encode`, `transcode`, `SummaryPatch::write` | every header written carries the requested format: from the section lists |
| C65 | `encode`, `Merger`, `SummaryPatch::write`, `apply_patch` | every encoded patch is a step without empty operations, so C48 applies to the chain: induction on the history |
| C66 | `encode`, `transcode`, `apply_patch` | what `encode` writes extracts to the operations it emitted (`encoded_extract`), none empty, so C51 applies |
| C67 | `apply_patch` | two runs of the decoder on dictionaries that agree on the copied ranges make the same steps (`applyLoop_agree`): induction on operations and sections |
| C68 | `apply_patch` | every alternative of the byte grammar satisfies `4*len <= 65535*bytes`; induction on operations, sections, inner patches |
| C69 | `transcode`, `SummaryPatch::write`, `convert` | the section generator's size bound (C32) carried through the writers |
| C70 | `SectionHeader` builders, `write_section_header`, `read_section_header` | C10 for the clamped header; inversion of the control byte for unchecked ones (all 256 values by kernel evaluation) |
| C71 | `encode`, `encode_inner`, `SrcMatcher`, `op_maker` | the hash tables after `build` hold position 0 under the hash of the first bytes; `extend` from (0,0) reaches the end of the target; the resolved list is that one match |
| C72 | all tools over the class `Writer`, instances `Vec` and `LimitedWriter` | simulation between the two instances, closed under sequencing, for every function that writes |
| C73 | `apply_patch` on prefixes | readers are stable (what they read does not depend on what follows) and cuttable (a cut gives the same or end-of-file); induction over the sections |
| C74 | all tools with the build (`dbg`) as a parameter | a relation "panics or equal" that is closed under the monad operations, for every function of the model |
| C75 | `apply_patch` over an abstract device (`Model/Device.lean`); a device whose calls fail by a schedule | the model over a plain cursor is an instance; the faulty run tracks the plain one until the first fault |
| C76 | `encode` | each operation costs at most 13 bytes per byte it makes; two consecutive sections make more than 65535 bytes (C17) |
| C77 | `section_writer`, `read_ops` with the lazy libraries | evaluation for all configurations, dictionaries and libraries |
| C78 | `read_ops_no_comp`, `read_section`, both `SectionIterator`s and `section_writer` once more, with the buffers of the caller (Model/Buffers.lean) | refinement: each is the version without buffers; induction over operations, `add_idxs` and calls |
| C79 | the setters of `EncoderConfig` (Model/Config.lean); everything `encode` does with the settings was modelled before | equality of runs: congruence where a setting is normalised at once, simulation of the main loop (invariant of the encoder) for `lazy_escape_len` and the window |
| C80 | `read_to_end` of the inputs of `encode` and the seeks of `apply_ops` in the dictionary, on readers with positions and broken spots (Model/Inputs.lean) | `encode` by computation; `apply_patch` by simulation over operations and sections; witness by evaluation |
| C81 | the search after a first match (`Behind`), before a match of the whole source at the end, the two passes of `translate_inner_ops`, the size of the written sections | invariant of the main loop: the first match is never cleared, all others end behind it; induction over the first pass: at most two matches cover the common part, but for a few bytes; cost of the second pass by induction |
| C82 | `Model/Streams.lean`: the whole reading side again, over an abstract `Read` (pieces, interruptions, errors), std's `read_exact` loop and `BufReader` | simulation: every function on readers does what the function on bytes does (`Exactly`, `Follows`), closed under `bind`; then C73 for the failure inside a patch |
| C83 | iterators over any reader, `into_inner` | from the simulation of C82 by induction over the sections; (N) for the decoder's iterator: a property kept by every `read` (`KeepsAll`) lifts to all of the reading code |
| C84 | `Model/Writing.lean`: std's `write_all` loop over an abstract `Write` (pieces, interruptions, errors, `Ok(0)`), `BufWriter` with its flush | every writing function is a list of `write_all` calls followed by an outcome, the same for all writers (`Calls`, closed under `bind`); then induction over that list |
| C85 | `Model/AnyInputs.lean`: std's `read_to_end` loop and `encode` on any readers | induction over the loop; C84, C28 and C82 for the whole way |
| C86 | `Model/Memory.lean`: the readers and `apply_patch` with the capacity of their operation buffer and a limit on it (`Vec::reserve` with std's growth) | simulation of the unlimited loops; a section that is read has as many operations as announced, of at least two bytes each |
| C87 | the iterators of `Model/Streams.lean` called again and again (`answer`); `Lasting` readers | what is left of a reader when a read reports its end (`Exhausts`), function by function; induction over the sections |
| C88 | `Model/Merger.lean`; `SpecOrigin.lean`: operations run on origins (written byte or place of the first file) instead of bytes | parametricity: a chain of patches is a function natural in the bytes of the first file (`trace_map`), and origins are determined by their images under all relabelings (`origins_ext`); C45 applied to every relabeling |
| C89 | `Model/Merger.lean`; `SpecPieces.lean`: operations run on cells (how a byte came to be, whether a piece begins with it) instead of bytes | the merger's invariant with cells instead of bytes: slicing an operation = taking part of its cells with a cut in front, expanding a copy = the cells of what it copies; cells of plain operations determine them (`ownL_inj`); for the multiplication, k one-byte Adds and m copies of all of them |
| C90 | `Model/Transcoder.lean`; `SpecPairs.lean`: one function from left to right instead of two passes with indices | the two passes are one (`optimized_pairwise`); for the end of repetition the measure `slack`: every operation counts the bytes from its start on, every Add one more; a joining moves starts to the right or removes one |
| C91 | `Model/Merger.lean`, `Model/Patch*`; the statement only uses `Chain`, `mergeChain`, `summaryWrite` | merging is determined by what a chain does to marked pieces of the first file (C89_determined); the written block does the same to pieces as the stretch it replaces (`block_patch`) |
| C92 | `SpecPackaging.lean`: `SameOps`, `SameSearch`, `SameChain`; all of encoder, decoder, merger, transcoder | applying a patch that can be read is applying all its operations at once (`applyLoop_flat`: the seek between sections is where the sink stands); written lists of operations are read back (`writeList_apply`) |
| C93 | `SpecIndex.lean`: `Placed`, `slotOf`, `FirstInSlot`, `Longest`; source matcher, hash table, main loop, `encode`, `apply_patch` | storing in decreasing order keeps in each bucket the first place of those stored (`Holds`); the table is never touched again (`reached_filled`); no source candidate, no dictionary Copy (`NoSrc` through loop and both passes) |
| C94 | `SpecRepeat.lean`: `considered`, `repeatsAt`, `Repeats`, `Chosen`, `label`, `entries`; target matcher, chain, main loop, `encode`, `section_writer` | the table and the chain represent the list of all entries (`Recorded`), kept by every store; the walk enumerates `considered`; the rolling checksum is `label` (`Searched`, `Knows`); the multiplier has order 2^30 modulo 2^32 (`order_large`) |
| C95 | `SpecWindow.lean`: `WindowSize`, `Plan` (range, searchAt, entered, places, known, lookup), `FirstPlaces`; source matcher, main loop, `encode` | the table represents the list of all places stored, newest first (`KeepsAll`), kept by every store; the main loop with the positions of all searches (`Started`) keeps the windows of the plan (`Slides`); counting windows by induction over the searches |
| C96 | main loop, op maker, `encode`; `Missed` (`Lemmas/Coverage.lean`): the search stood at a place and found nothing | every place of the target is either covered by a match given to the op maker or was missed in a reachable state (`reached_covered`, `encodeInner_covered`); what the filter removes or shortens changes the cover only near the ends of an Add (`translate_stored`); a missed place is not followed by four equal bytes |
| C97 | `SpecIndex.lean`: `Placed`, `slotOf`; main loop, source matcher, op maker, `encode` | `stored_missed` of C96 gives a reachable state at every inner place of an Add in which the source matcher returned nothing; C93 says what it would have returned |
| C98 | `SpecStored.lean`: `StoredAt`, `BehindLong`; `SpecRepeat.lean`: `slot32`, `label`; main loop, target matcher, op maker, `encode` | the states of a search are totally ordered (`searched_total`); a missed position is entered before any later one is looked up (`missed_passed`); a long Run or Copy comes from a candidate found in a state after which the checksums are right (`translate_inside`, `encodeInner_found`, `jumped_after`); then C94 says the repetition would have been found |
| C99 | `SpecEdit.lean`: `Landmark`; `SpecIndex.lean`: `Placed`, `slotOf`; main loop, both matchers, op maker, `encode` | invariant of the search (`reached_end`): up to the landmark no match other than the right one can be long enough to be jumped over it (`SameRest.run_short`, `trgt_short`, `src_right`); at the landmark C93 finds the right one, which reaches to the end and back to the beginning of the common end; then the costs of the two ends are added up (`translate_both`) |
| C100 | `SpecEdits.lean`: `Piece`, `Recognised`, `kept`, `changed`; main loop, both matchers, op maker, `encode` | per piece an invariant of the search (`reached_piece`): either its mark is still ahead and no candidate reaches to its end, or a candidate contains it but for its first byte, and later matches that replace this one contain it too (`trySrc_contains`); for each such candidate, of what the first pass keeps at most three candidates touch it and all but 21 bytes of it are given (`cand_zone`); the cost is counted over the places of the target (`tiledCost_zone`) |
| C101 | writer, reader, `make_sections`, `encode`, `SummaryPatch::write`, `transcode`; grammar of `Spec.lean` | the number of bytes of a list of operations as a function of the two last addresses (`opsBytes`): exact for what is written (`body_length`), a lower bound for what can be read (`read_length`); it changes by at most 18 when the addresses start anew (`opsBytes_restart'`), hence per section; joining pairs costs at most a byte for each operation (`pairwise_bytes`) |
| C102 | `merge_patches`, `SummaryPatch::write`; `Holds`, `CopiesAtMost`, `carried` in `SpecCarry.lean` | the cells of a chain (C89): an operation of the merged patch begins where the last patch begins one, or where the copied pieces begin; counting the places at which the pieces begin over the copied ranges gives at most m per piece; induction over the chain (`Lemmas/Carry.lean`); file sizes from C101's `body_length`, `read_length` |
| C103 | `encode`, `encode_inner`, `translate_inner_ops` | an invariant of the search loop over the kinds of the candidates pushed so far and of the pending match (`SearchKind`), kept by the first pass (`resolve_kind`); a copy from the output that the second pass writes comes from a target match or from a run of at least 372 (`pass2_mem`); with C04's truth of the candidates |
| C104 | `convert_vcdiff_to_smdiff`; `cuts`, `vcdOps`, `vcdInstCount` in `SpecTranslate.lean` | the simulation of C54 extended to the operations themselves and to when a section is written; sizes from C101's `written_length` |
| C105 | `Merger::new`, `merge`, `get_exact_slice`, `deref_copy_o`; `Applies`, `AppliesTo`, `Got` in `SpecFit.lean` | each loop shown to succeed or to panic by induction, with positions instead of bytes (`OutFits`, `DictFits`), and these shown to be what `meaning` needs; an invariant of every merger a program can have got |
| C106 | `encode`, `transcode`, `SummaryPatch::write`; `Settled`, `RunsApart` in `SpecSettled.lean` | C90's `pairwise` is the identity on settled operations; the neighbouring Adds of `translate_inner_ops` by induction over the candidates; a witness for the proviso |
| C107 | all of the merger, the transcoder and the VCDIFF converter; `CountFits`, `ZeroPeriod`, `DataReturns` in `SpecEnds.lean` | fuel suffices because every section read consumes input (C20); the other loops shrink; the release build's writer has no failing case left for legal operations |
| C108 | `MadeWith` in `SpecFlow.lean`, an inductive definition whose cases are the modelled `encode`, `convert`, `transcode`, `mergeChain` + `summaryWrite` | induction over the history: every case gives a `Step` (applies, small, no empty copies, in both builds), which is what the next tool needs |
| C109 | `Origin` (`written b` or `source i`) of `SpecOrigin.lean` | `apply_patch` is run on a sink of origins: every operation moves origins only, so the whole run is the same for all readings of them; two recipes that read alike from all sources are equal |
| C110 | `Delivers`, `putRight` of `SpecBack.lean` | what a successful read says about operations and header (C08, C14, C15) is what a successful write asks for, but for the number of add bytes; two patches whose iterators deliver the same operations drive `apply_patch` alike |
| C111 | `Stores`, `ChangedAt` of `SpecInPlace.lean`, `trace` of `SpecOrigin.lean` | the grammar has the byte in one place of the section and is satisfied whatever is there; which places of the output follow it is found by induction on the operations behind it |
| C112 | `HeaderEnc`, `BodyEnc`, `Consistent` of `Spec.lean` | the reader for more operations delivers the first ones alike (induction), so two headers of the same bytes are compared through the lengths of what they deliver |
| C113 | `BitSet`, `shift`, `continued` in `SpecJoin.lean` | induction over the grammar for the bit; execution of shifted operations behind another output by induction; the pieces by induction with C20, C01's invariants and the encoder's own operations (C103) |
| C114 | `Placed`, `slotOf` in `SpecIndex.lean` | the first entry of each slot wins (C110's index); at most one remembered place per slot, the number of slots bounded by rounding down; lost targets by the argument of C93 with the common places restricted to the remembered ones |
| C115 | `BitSet`, `UpToBit`, `reach` in `SpecJoin.lean` | the reader with and without the bit does the same (any compression); induction over the grammar for the cut; the meaning of a section without output copies does not depend on what was written before, so selected sections are executed one after the other; for compressed output of the encoder, sections that read alike whatever follows (from `Faithful`), `PartsComp.lean` |
| C116 | `CutsBest`, `WellFilled` of `SpecGreedy.lean` | the loop invariant of C17 (the next section begins with an operation that did not fit); a greedy cut is never behind another cut, by induction over the sections with any number of operations still to be covered; for `convert` the simulation of C54 carries the invariant |
| C117 | `FewestOps` of `SpecBest.lean` | lower bound: no operation of any readable patch makes more than 65535 bytes; upper bound: the operations of C71 (prefix) and of an empty list of matches, counted |

(Properties marked (N) above were first stated as one would expect them, found false, and then restated exactly in
`properties.jsonl`; the refuting witness stays as a theorem next to the exact statement.)

## 5. Axioms

`#print axioms` on all property theorems (`Cnn_…` in `Verif/Props/*.lean`): every one depends on a subset of
`propext`, `Classical.choice`, `Quot.sound`.  None depends on `sorryAx`-like placeholders, on `Lean.ofReduceBool` /
`Lean.trustCompiler`, or on an axiom of this project (there is none).  The following do not need `Classical.choice`:
C09_release_never_panics, C09_debug_panics, C09_never_panics_false, C15_reported_add_bytes_false, C19_* (of which
C19_new_not_ended needs no axiom), C22_prefix_of_result, C23_*, C24_no_dictionary_needed, C26_*,
C29_short_targets_have_no_late_match, C29_late_match_panics, C38_nine_byte_target_false and
C38_target_matcher_blind (only `propext`), C38_covers, C44_not_composable_panics, C47_as_stated_false,
C47_empty_copy_panics, C49_as_stated_false, C53_no_operations_panics, C53_empty_target_panics, C53_unreadable,
C55_zero_period_diverges, C58_*, C59_failing_writer_header, C59_failing_writer_ops, C03_varint_buffer,
C60_unknown_algo_rejected_false, C61_published_layout_false.

Concrete witnesses are evaluated by `decide` / `decide +kernel`, i.e. by the kernel's reduction, never by compiled code.

## 6. What the model found in the code

Each item is proved of the model (theorem in parentheses).

1. The op byte is `type << 6 | size`, not the layout printed in spec.md (C61).
2. `size_routine` selects the one-byte "size − 62" form for 63 only; 64…317 cost a `u16` (C62).
3. `diff_addresses_to_i64`/`_to_u64` overflow at distance 2^63: a panic in debug builds (C04).
4. `read_u_varint` on more than ten continuation bytes, and header sums above `u32::MAX`, panic in debug builds (C09).
5. `num_add_bytes` of a read segregated section is counted twice; of an interleaved one it is 0 (C15).
6. `Op::oal` truncates an Add above 65535 bytes to 16 bits: the writer produces a corrupt section (C63).  Runs of 0 or more
   than 62 bytes panic (C13).
7. The decoder's CopyO reads whatever the sink holds behind the current position: stale bytes of a reused sink can become output
   (C23).  CopyD without a dictionary panics (C24).  Compression ids 4–7 are read as raw (C60).
8. The encoder panics when source matching meets a match of at least `lazy_escape_len` bytes ending 5–8 bytes before the end of
   the target (C29_late_match_panics).
9. Target matching together with a naive Append test: `build` reads out of bounds if at most three bytes follow, and the search can
   run forever (C29, C30).
10. The target matcher starts with hash 0 instead of the first window's hash; until the first jump of at least 4 bytes it looks up
    wrong hashes (C38_target_matcher_blind).
    In debug builds files whose lengths multiply to 2^64 or more (two files of 4 GiB) can panic as well
    (C29_large_append_panics), and so does a source window above 2^63 (C29_huge_window_panics).
11. The chain capacity must be a power of two: otherwise `encode` panics (C29).
12. `Stats` counts every copy once more as CopyD (C49); `Merger::new` panics in debug builds on a patch whose copies are all CopyO
    (C47); a zero-length CopyO at the very end of the output panics (C47_empty_copy_panics); merging with a predecessor that is too
    short panics (C44_not_composable_panics).
13. `transcode` panics on a patch without operations, in particular on the encoder's own patch for an empty target (C53).
14. VCDIFF conversion: a self-overlapping copy with period and length above 65535 is an error, a zero period an endless loop
    (C55).
15. The source matcher never matches a target (remainder) of exactly nine bytes (C38_nine_byte_target_false).
16. With brotli (and zstd) the round trip of an empty target depends on what the library does when its reader is closed
    before anything was read (C77): `into_inner` of brotlic's reader may refuse that.
17. `section_writer` clears its buffer after a success only: after an error the buffer still holds operations, and the next call
    puts them in front of its own (C78_failed_call_poisons_buffer).
18. `lazy_escape_len` is documented to default to `Some(45)`; the encoder uses 90 (C79_lazy_default_is_not_45).  The "dynamic
    calculation" documented for `max_src_win_size` is the constant 2^26 (C79_window_default).
19. `encode` does not rewind its inputs, `apply_patch` seeks absolutely: a dictionary whose reader does not stand at the start
    gives a patch that silently makes another file (C80_moved_dict_breaks_round_trip), and calling `encode` twice with the same
    readers encodes empty files (C80_second_call_is_empty).
20. `into_inner` of smdiff-decoder's `SectionIterator` loses what its `BufReader` has read ahead, so that data behind a patch cannot
    be read on (C83_decoder_reads_ahead); the one of smdiff-reader does not (C83_into_inner).
21. The readers reserve room for `num_operations` operations of an unchecked header: a patch of seven bytes asks for 4294967295
    operations (about 100 GB) and can abort the program instead of giving an error (C86_seven_bytes_end_it).
22. The section iterators are not fused by an error: on a patch that was cut off they give `UnexpectedEof` for ever and never `None`
    (C87_cut_off_never_ends).
23. **Merging can multiply the number of operations** (C89_multiplies): the merger never joins neighbouring pieces that could be one operation (`k` one-byte Adds copied `m` times give `m * k` one-byte Adds), so merging patches may give a patch many times as large as they are together.
24. `transcode` is documented to group adjacent Adds together and to join adjacent Runs; its loops advance by two after a pair, so that only
    pairs are joined (C90_adds_halved), transcoding twice gives another patch than once (C90_not_idempotent), and no Runs ever get long
    enough for the documented copies (C52_transcoded_ops).
25. `BasicHashTable::new` is documented to round the capacity up to the next power of two; it rounds down (C93_rounded_down), so that with
    the capacity asked for by the source matcher there can be four times as many places as buckets.  The last places of the source are
    not entered although nine bytes are there: a file of fewer than `l_step + 9` bytes (27 with the default settings) is not even found in
    itself (C93_short_source).  The extension to the left never reaches the first byte of either file (`Longest.room`).
26. The target matcher is blind until the first match of `lazy_escape_len` bytes or more is taken: the checksum it starts with is 0 instead of
    that of the first four bytes, and rolling it on never corrects that.  So target matching alone, and SMDIFF as secondary compression,
    find no repetition in a file without a run of 90 equal bytes (C94_no_copies) and make it larger (C94_only_adds, C94_smdiff_larger).
27. The window over the source slides only when a search starts, that is after a match of `lazy_escape_len` bytes or more.  So with a target of up to half
    a window (32 MiB by default) the source is never searched beyond its first 64 MiB (C95_short_target), and if the target has nothing in common with
    them, the rest is not used even for larger targets (C95_never_slides).
28. `transcode` can make a patch larger although it is documented to optimise it: joining two Adds of 32 bytes needs one byte more than the two together, and every length from 64 to 317 that was given in one byte is written with two (C101, smdiff-merger/src/transcoder.rs:85-97, smdiff-common/src/lib.rs size_routine).
29. Turning a matcher off is not complete: with `match_target: None` (the default) runs of 372 bytes or more are written with copies from the output, and with `match_src: None` the naive tests still copy from the source, so the patch panics without it (C103, smdiff-encoder/src/op_maker.rs, smdiff-encoder/src/encoder.rs).
30. `convert_vcdiff_to_smdiff` writes one copy per period for a self-overlapping copy: repeating one byte n times, two instructions in VCDIFF, becomes n+1 operations and a patch more than twice as long as the file; it could write runs, or copy doubling lengths (C104, smdiff-vcdiff/src/lib.rs).
31. `Merger::new` and `merge` panic on patches that do not fit together instead of returning an error, and a misfit of the first two of three patches may go unnoticed (C105).
32. With default settings `encode` may write one run of a byte as two neighbouring Runs (the last byte of the run separately), so transcoding its patch with the same settings can make it shorter (C106_not_always).
33. A build with debug assertions panics when it transcodes a patch of two sections whose copies are 2^63 apart (each section alone can be read and written); a release build transcodes it (C107_far_patch).
34. Sections cannot be written back as they were delivered: a segregated one is refused (or makes a debug build panic) because the reader doubles `num_add_bytes`, and one from a compressed patch keeps the compression in its header, so that the file written labels plain operations as compressed and cannot be read (C110_segregated_refused, C110_as_delivered_false).
35. The format has no checksum of the output (or of anything else): a byte that is stored in an uncompressed patch can be changed in place and apply_patch reports success with another file (C111_stored_byte, C111_encoded).
36. The split of the output size of a segregated section (`num_add_bytes`) is written, but never checked by a reader; and operations of length 0 are accepted by the readers (C112_header and the examples beside it).
37. Patches of pieces cannot be joined in general even with target matching switched off: long runs are lengthened by copies from the output, whose addresses count from the beginning of the whole output (C113_runs_break).
38. The expected bytes of the three unit tests of smdiff-vcdiff (src/lib.rs:225-325) have a header of one byte, as in an older
    format; with today's header writer these tests fail (`Conformance.lean`).
39. The hash table of the source is sized by rounding down to powers of two and of the places that share a slot only one is kept, so at default settings at least about 7/16 of the places entered are lost: nothing that follows in the target can ever make the encoder find them (C114_default). A piece of 43 bytes of the source is then encoded without the source.
40. A single bit decides where a file ends: when the highest bit of the first byte of a section is cleared, `apply_patch`
    returns `Ok` with a shorter file, and sections can be left out, repeated or exchanged unnoticed (C115). The format has no
    total length and no number of sections.
