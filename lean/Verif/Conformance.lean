import Verif.Model.Transcoder
import Verif.Model.Vcdiff
import Verif.Model.Unused
import Verif.Props.Decoder
/-!
# The unit tests of /repo, run on the model

These are tests of the model, not properties: for each `#[test]` of /repo the same inputs are given to the model and the
results that the author of /repo expects are compared with it, by evaluation in the kernel.  They are independent evidence
that the model is a model of this code.  Tests that were out of date when the model was written say so.
-/
namespace Smdiff
namespace Conformance

/-- The bytes of a literal, as `"…".as_bytes()` or `b"…"`. -/
def ascii (s : String) : Bytes := s.toList.map fun c => UInt8.ofNat c.toNat

/-- `write_section_header` and `write_ops` for one section, as the tests call them. -/
def sec (w : Bytes) (format : Format) (numOps numAdd size : Nat) (more : Bool) (ops : List Op) : Bytes :=
  let h : SectionHeader :=
    { compressionAlgo := 0, format, numOperations := UInt32.ofNat numOps, numAddBytes := UInt32.ofNat numAdd
      outputSize := UInt32.ofNat size, moreSections := more }
  match (do writeSectionHeader true h; writeOps true ops h : IOm Bytes Unit) w with
  | (.ok (), w') => w'
  | _ => [255, 255, 255]

/-- The bytes that `apply_patch` leaves in an empty sink. -/
def applied (patch : Bytes) (src : Option Bytes) : Option Bytes :=
  match applyPatch true storedCodec src patch .empty with
  | (.ok (), c) => some c.data
  | _ => none

/-- The bytes of the sections and their operations that the reader of the crate `smdiff-reader` delivers. -/
def sections : Nat → SectionIterator → List (List Op)
  | 0, _ => []
  | n + 1, it =>
    match it.next true with
    | (some (.ok (ops, _)), it') => ops :: sections n it'
    | _ => []

/-! ## smdiff-common/src/lib.rs:338-398 -/

/-- `test_ivarint` and `test_ivarint_vals` -/
example : [0, -1, 1, -2, 2, 1024, -1025, 9223372036854775807, -9223372036854775808,
    -64, 63, -8192, 8191, -1048576, 1048575, -134217728, 134217727, -123456789].all (fun v : Int =>
    (readIVarint true (writeIVarint (BitVec.ofInt 64 v) ([] : Bytes)).2).1 = .ok (BitVec.ofInt 64 v)) = true := by
  decide +kernel

/-- `test_add_i64_to_u64`.  The last one of each group wraps around, which the model of a debug build does as well. -/
example : diffAddressesToU64 true 10 5 = .ok 15 ∧ diffAddressesToU64 true 0 9223372036854775807 = .ok 9223372036854775807 ∧
    diffAddressesToU64 true 20 (-5) = .ok 15 ∧ diffAddressesToU64 true 10 (-15) = .ok 0xFFFFFFFFFFFFFFFB ∧
    diffAddressesToU64 true 0 (-1) = .ok 0xFFFFFFFFFFFFFFFF ∧
    diffAddressesToU64 true 0xFFFFFFFFFFFFFFFF 1 = .ok 0 := by
  decide +kernel

/-- `test_u64_to_i64_diff` -/
example : diffAddressesToI64 true 5 10 = .ok 5 ∧ diffAddressesToI64 true 10 5 = .ok (-5) ∧
    diffAddressesToI64 true 20 20 = .ok 0 := by
  decide +kernel

/-! ## smdiff-writer/src/lib.rs:150-470 and smdiff-reader/src/lib.rs:257-470 -/

def helloRun : List Op := [.add (ascii "he"), .run 108 2, .add (ascii "o")]

/-- `test_basic_add_run` of the writer -/
example : sec [] .interleaved 3 3 5 false helloRun = [0, 3, 5, 130, 104, 101, 194, 108, 129, 111] := by decide +kernel

/-- `test_basic_add_run` of the reader -/
example : sections 5 (.new [0, 3, 5, 130, 104, 101, 194, 108, 129, 111]) = [helloRun] := by decide +kernel

def hello : List Op := [.add (ascii "H"), .copy .dict 1 4, .add (ascii "! "), .copy .output 0 6]

/-- `test_hello_micro` of the writer -/
example : sec [] .interleaved 4 3 13 false hello = [0, 4, 13, 129, 72, 4, 2, 130, 33, 32, 70, 0] := by decide +kernel

/-- `test_hello_micro` of the reader -/
example : sections 5 (.new [0, 4, 13, 129, 72, 4, 2, 130, 33, 32, 70, 0]) = [hello] := by decide +kernel

def helloWin : Bytes :=
  [192, 1, 1, 0, 129, 72, 192, 1, 0, 4, 4, 2, 192, 1, 2, 0, 130, 33, 32, 64, 1, 0, 6, 70, 0]

/-- `test_hello_win` of the writer -/
example :
    let w := sec [] .segregated 1 1 1 true [.add (ascii "H")]
    let w := sec w .segregated 1 0 4 true [.copy .dict 1 4]
    let w := sec w .segregated 1 2 2 true [.add (ascii "! ")]
    sec w .segregated 1 0 6 false [.copy .output 0 6] = helloWin := by
  decide +kernel

/-- `test_hello_win` of the reader -/
example : sections 9 (.new helloWin) = [[.add (ascii "H")], [.copy .dict 1 4], [.add (ascii "! ")], [.copy .output 0 6]] := by
  decide +kernel

/-- `kitchen_sink_transform` of the writer -/
example :
    let w := sec [] .segregated 1 1 1 true [.add (ascii "H")]
    let w := sec w .segregated 1 0 4 true [.copy .dict 1 4]
    let w := sec w .segregated 1 2 2 true [.add (ascii "! ")]
    let w := sec w .segregated 1 0 6 true [.copy .output 0 6]
    let w := sec w .segregated 1 0 4 true [.copy .output 6 4]
    sec w .segregated 1 0 3 false [.run 46 3] =
    [192, 1, 1, 0, 129, 72, 192, 1, 0, 4, 4, 2, 192, 1, 2, 0, 130, 33, 32, 192, 1, 0, 6, 70, 0, 192, 1, 0, 4, 68, 12,
      64, 1, 0, 3, 195, 46] := by
  decide +kernel

def kitchenSink : Bytes :=
  [192, 1, 1, 0, 129, 72, 192, 1, 0, 4, 4, 2, 192, 1, 2, 0, 130, 33, 32, 192, 1, 0, 6, 70, 0, 192, 1, 0, 5, 69, 12,
    64, 1, 0, 3, 195, 46]

/-- `kitchen_sink_transform` of the reader -/
example : sections 9 (.new kitchenSink) = [[.add (ascii "H")], [.copy .dict 1 4], [.add (ascii "! ")], [.copy .output 0 6],
    [.copy .output 6 5], [.run 46 3]] := by
  decide +kernel

/-! ## smdiff-decoder/src/lib.rs:103-230 -/

/-- `test_src_apply` -/
example : applied [0, 4, 13, 129, 72, 4, 2, 130, 33, 32, 70, 0] (some (ascii "hello")) = some (ascii "Hello! Hello!") := by
  decide +kernel

/-- `test_complex_apply` -/
example : applied helloWin (some (ascii "hello")) = some (ascii "Hello! Hello!") := by decide +kernel

/-- `test_kitchen_sink` -/
example : applied kitchenSink (some (ascii "hello")) = some (ascii "Hello! Hello! Hell...") := by decide +kernel

/-! ## smdiff-merger/src/lib.rs:440-815 -/

def copyPatch : Bytes := sec [] .interleaved 2 0 10 false [.copy .dict 0 5, .copy .dict 0 5]
def addRunPatch : Bytes :=
  sec [] .interleaved 5 0 10 false [.add (ascii "A"), .copy .dict 1 2, .run 88 3, .add (ascii "YZ"), .copy .dict 3 2]
def complexPatch : Bytes :=
  sec [] .interleaved 5 0 10 false
    [.add (ascii "Y"), .run 90 2, .copy .dict 4 1, .copy .output 2 2, .copy .dict 1 4]

/-- `Merger::new(…).unwrap().unwrap()` -/
def start (p : Bytes) : Option Merger :=
  match Merger.new true storedCodec p with
  | .ok (.merger m) => some m
  | _ => none

/-- `expand_to`, in a form that the kernel can evaluate: what is in order already is not sorted. -/
theorem expandTo_eq (target : List SparseOp) (inserts : List (Nat × List SparseOp)) :
    expandTo target inserts = if inserts.Pairwise (fun a b => a.1 ≤ b.1) then expandLoop inserts target 0 0
      else expandTo target inserts := by
  split
  · next h => rw [expandTo, List.mergeSort_of_pairwise (h.imp (by simp))]
  · rfl

/-- `merger.merge(…).unwrap().unwrap()` -/
def merge (p : Bytes) (m : Merger) : Option Merger :=
  match m.merge true storedCodec p with
  | .ok (.merger m) => some m
  | _ => none

/-- `merger.merge(…).unwrap().unwrap_err()` -/
def mergeSummary (p : Bytes) (m : Merger) : Option (List Op) :=
  match m.merge true storedCodec p with
  | .ok (.summary ops) => some ops
  | _ => none

/-- `write(&mut merged_patch, None, None, None).unwrap()` -/
def summary (ops : List Op) : Option Bytes :=
  match summaryWrite true storedCodec ops none none none ([] : Bytes) with
  | (.ok (), w) => some w
  | _ => none

/-- `test_copy_add` -/
example : ((((start addRunPatch).bind (merge copyPatch)).bind fun m => summary m.finish).bind
    fun p => applied p (some (ascii "01234"))) = some (ascii "A12XXXYZ34") := by
  unfold merge Merger.merge
  rw [show expandTo = _ from funext fun a => funext fun b => expandTo_eq a b]
  decide +kernel

/-- `test_add_copy` -/
example : ((((start copyPatch).bind (merge addRunPatch)).bind fun m => summary m.finish).bind
    fun p => applied p (some (ascii "01234"))) = some (ascii "A12XXA12XX") := by
  unfold merge Merger.merge
  rw [show expandTo = _ from funext fun a => funext fun b => expandTo_eq a b]
  decide +kernel

/-- `test_add_complex` -/
example : ((((start complexPatch).bind (merge addRunPatch)).bind fun m => summary m.finish).bind
    fun p => applied p (some (ascii "01234"))) = some (ascii "YZZXZX12XX") := by
  unfold merge Merger.merge
  rw [show expandTo = _ from funext fun a => funext fun b => expandTo_eq a b]
  decide +kernel

/-- `test_complex_add` -/
example : ((((start addRunPatch).bind (merge complexPatch)).bind fun m => summary m.finish).bind
    fun p => applied p (some (ascii "01234"))) = some (ascii "AZZXXXYZ4Z") := by
  unfold merge Merger.merge
  rw [show expandTo = _ from funext fun a => funext fun b => expandTo_eq a b]
  decide +kernel

/-- `test_all_seq` -/
example : (((((start copyPatch).bind (merge complexPatch)).bind (mergeSummary addRunPatch)).bind summary).bind
    fun p => applied p none) = some (ascii "YZZXZYZZXZ") := by
  unfold merge mergeSummary Merger.merge
  rw [show expandTo = _ from funext fun a => funext fun b => expandTo_eq a b]
  decide +kernel

def sink1 : Bytes :=
  let w := sec [] .interleaved 1 0 5 true [.copy .dict 0 5]
  let w := sec w .interleaved 3 0 6 true [.add (ascii " w"), .copy .output 4 1, .add (ascii "rld")]
  sec w .interleaved 1 0 1 false [.copy .dict 5 1]

def sink2 : Bytes :=
  let w := sec [] .interleaved 4 0 7 true [.add (ascii "H"), .copy .dict 1 4, .copy .dict 11 1, .copy .dict 5 1]
  let w := sec w .interleaved 4 0 14 true [.copy .output 0 7, .copy .output 7 5, .add (ascii "."), .copy .output 13 1]
  let w := sec w .interleaved 2 0 7 true [.add (ascii "h"), .copy .output 15 6]
  sec w .interleaved 2 0 8 false [.copy .output 21 5, .run 46 3]

/-- `test_kitchen_sink` -/
example : applied sink1 (some (ascii "hello!")) = some (ascii "hello world!") ∧
    applied sink2 (some (ascii "hello world!")) = some (ascii "Hello! Hello! Hello. hello. hello...") ∧
    ((((start sink2).bind (merge sink1)).bind fun m => summary m.finish).bind fun p => applied p (some (ascii "hello!"))) =
      some (ascii "Hello! Hello! Hello. hello. hello...") := by
  refine ⟨by decide +kernel, by decide +kernel, ?_⟩
  unfold merge Merger.merge
  rw [show expandTo = _ from funext fun a => funext fun b => expandTo_eq a b]
  decide +kernel

/-! ## smdiff-merger/src/transcoder.rs:174-257 -/

def makeOps : List Op := [.add (ascii "ABC"), .add (ascii "DE"), .run 88 3, .run 88 2, .copy .dict 0 3]
def correctOps : List Op := [.add (ascii "ABCDE"), .run 88 5, .copy .dict 0 3]

/-- `test_optimize_and_convert_ops` -/
example : Transcoder.optimizeAndConvertOps
    [.add (ascii "ABC"), .add (ascii "DE"), .run 88 3 5, .run 88 2 8, .copy .dict 0 3] = .ok correctOps := by
  decide +kernel

/-- `create_test_patch`, with `TrgtMatcherConfig::default()` -/
def testPatch : Option Bytes :=
  match TrgtMatcherConfig.compLevel 3 with
  | .ok cfg =>
    match writeSectionsWith true storedCodec (some (.smdiff cfg)) .segregated (makeSections makeOps MAX_WIN_SIZE) ([] : Bytes) with
    | (.ok (), w) => some w
    | _ => none
  | _ => none

/-- `test_transcode`; a library that stores stands for zstd -/
example : (testPatch.bind fun input =>
    match Transcoder.transcode true storedCodec input .interleaved (some .zstd) MAX_WIN_SIZE ([] : Bytes) with
    | (.ok (), w) =>
      match (SectionIterator.new w).nextComp true storedCodec with
      | (some (.ok (ops, _)), _) => some ops
      | _ => none
    | _ => none) = some correctOps := by
  decide +kernel

/-! ## smdiff-encoder/src/hasher.rs:104-140 -/

def text : Bytes := ascii "hello world, this is a test of the rolling hash"

/-- `test_rolling_hash_fwd` -/
example : (((List.range (text.length - 21)).map (· + 1)).foldl (fun (s : UInt64 × Bool) i =>
    let h := updLargeFwd s.1 (text.getD (i - 1) 0) (text.getD (i + 8) 0)
    (h, s.2 && decide (h = calcLarge (text.drop i)))) (calcLarge text, true)).2 = true := by
  decide +kernel

/-- `test_rolling_hash_bwd` -/
example : (((List.range (text.length - 20 - 9)).reverse).foldl (fun (s : UInt64 × Bool) i =>
    let h := updLargeBwd s.1 (text.getD (i + 9) 0) (text.getD i 0)
    (h, s.2 && decide (h = calcLarge (text.drop i)))) (calcLarge (text.drop (text.length - 20 - 9)), true)).2 = true := by
  decide +kernel

/-! ## smdiff-encoder/src/src_matcher.rs:292-355 -/

/-- `test_calculate_window_range_lrg_trgt` -/
example : windowRange true 10 1000 2000 256 994 0 2 0 = .ok (some (0, 512)) ∧
    windowRange true 10 1000 2000 512 994 0 2 0 = .ok (some (0, 994)) ∧
    windowRange true 900 1000 2000 256 994 1000 2 0 = .ok none ∧
    windowRange true 500 1000 2000 256 994 700 2 0 = .ok none ∧
    windowRange true 1250 1000 2000 256 994 512 2 0 = .ok (some (512, 880)) ∧
    windowRange true 400 1000 2000 256 994 300 2 1000 = .ok none ∧
    windowRange true 400 1000 2000 256 994 300 2 700 = .ok none := by
  decide +kernel

/-- `test_calculate_default_win_size_various_conditions` (of a function that nothing else calls) -/
example : defaultWinSize true 2000000 100 none = .ok (nextPow2 2000000) ∧
    defaultWinSize true 100 2000000 none = .ok (nextPow2 100) ∧
    defaultWinSize true 100000000 90000000 none = .ok (nextPow2 10000000) ∧
    defaultWinSize true 100000000 (100000000 - MIN_SRC_WIN_SIZE + 10) none
      = .ok (nextPow2 (100000000 - (100000000 - MIN_SRC_WIN_SIZE + 10)) + MIN_SRC_WIN_SIZE) ∧
    defaultWinSize true 100000000 25000000 none = .ok DEFAULT_SRC_WIN_SIZE := by
  decide +kernel

/-! ## smdiff-encoder/src/lib.rs:301-346 -/

def mapAll (a b c d : Nat) (xs : List Nat) : Outcome (List Nat) := do
  let r ← Ranger.new a b c d
  xs.mapM r.map

/-- `test_regular_mapping` -/
example : mapAll 1 11 1 100 [1, 2, 3, 4, 5, 6, 7, 8, 9, 10] = .ok [1, 12, 23, 34, 45, 56, 67, 78, 89, 100] := by
  decide +kernel

/-- `test_inverted_mapping` -/
example : mapAll 1 11 100 1 [1, 5, 10] = .ok [100, 56, 1] := by decide +kernel

/-- `test_out_of_range_input` -/
example : mapAll 3 10 0 100 [0, 11] = mapAll 3 10 0 100 [3, 10] ∧ mapAll 3 10 0 100 [0, 11] ≠ .panic := by decide +kernel

/-! ## smdiff-encoder/src/op_maker.rs:156-217 -/

/-- `test_small_run` -/
example : makeRunOps 0xAA 120 0 = [.run 0xAA 62, .run 0xAA 58] := by decide +kernel

/-- `test_exact_run_limit` -/
example : makeRunOps 0xBB (62 * 6) 0 = [.run 0xBB 62, .run 0xBB 62, .run 0xBB 62, .copy .output 0 186] := by decide +kernel

/-- `test_large_run_needing_copies` -/
example : makeRunOps 0xBB (62 * 6 + 100) 0 =
    [.run 0xBB 62, .run 0xBB 62, .run 0xBB 62, .copy .output 0 186, .copy .output 0 100] := by decide +kernel

/-- `test_large_run_needing_copies2` -/
example : makeRunOps 0xBB 414 0 =
    [.run 0xBB 62, .run 0xBB 62, .run 0xBB 62, .copy .output 0 186, .copy .output 0 42] := by decide +kernel

/-- `test_zero_length` -/
example : makeRunOps 0xDD 0 0 = [] := by decide +kernel

/-! ## smdiff-vcdiff/src/lib.rs:218-330

The expected bytes in /repo still have the header of an older format (the number of operations only), so these tests fail
there as they stand.  The operations behind the header are the expected ones; in front of them is today's header.  The
messages are those that the parser delivers for the bytes in the tests. -/

/-- `test_hello_micro` -/
example : Vcdiff.convert (σ := Bytes) true
    [.windowSummary (some 1) (some 4) .source,
     .inst (.add 1 (.ok (ascii "H! "))) (some (.copy 4 0 .copyS)),
     .inst (.add 2 (.ok (ascii "! "))) (some (.copy 6 4 (.copyT 11))),
     .endOfWindow] [] =
    (.ok (), [0, 4, 13] ++ [129, 72, 4, 2, 130, 33, 32, 70, 0]) := by
  decide +kernel

/-- `test_seq` -/
example : Vcdiff.convert (σ := Bytes) true
    [.windowSummary none none .neither,
     .inst (.add 3 (.ok (ascii "terst"))) (some (.copy 5 1 (.copyQ 3))),
     .inst (.add 2 (.ok (ascii "st"))) none,
     .endOfWindow] [] =
    (.ok (), [0, 4, 8] ++ [131, 116, 101, 114, 66, 2, 65, 0, 130, 115, 116]) := by
  decide +kernel

/-- `test_run` -/
example : Vcdiff.convert (σ := Bytes) true
    [.windowSummary none none .neither, .inst (.run 128 114) none, .endOfWindow] [] =
    (.ok (), [0, 3, 128, 1] ++ [254, 114, 254, 114, 196, 114]) := by
  decide +kernel

end Conformance
end Smdiff
