import Verif.Basic
import Verif.Cursor
import Verif.Model.Common
import Verif.Model.Writer
import Verif.Model.Reader
import Verif.Model.Decoder
import Verif.Spec
import Verif.SpecComp
import Verif.Lemmas.Int
import Verif.Lemmas.Wire
import Verif.Lemmas.Section
import Verif.Lemmas.Header
import Verif.Lemmas.Stable
import Verif.Lemmas.WriteInv
import Verif.Lemmas.Sectioning
import Verif.Lemmas.Patch
import Verif.Lemmas.Apply
import Verif.Lemmas.Loop
import Verif.Props.Ints
import Verif.Props.Wire
import Verif.Props.Sections
import Verif.Props.Decoder
import Verif.Model.Hash
import Verif.Model.Matchers
import Verif.Model.EncodeInner
import Verif.Model.OpMaker
import Verif.Model.Encoder
import Verif.SpecEnc
import Verif.Lemmas.OpMaker
import Verif.Lemmas.Search
import Verif.Lemmas.Encode
import Verif.Props.OpMaker
import Verif.Props.Encoder
import Verif.SpecHash
import Verif.SpecRun
import Verif.Lemmas.Hash
import Verif.Lemmas.Table
import Verif.Lemmas.Matchers
import Verif.Lemmas.Progress
import Verif.Lemmas.Termination
import Verif.Lemmas.EncodeSafe
import Verif.Lemmas.Reached
import Verif.Props.Progress
import Verif.Props.Matchers
import Verif.Model.Merger
import Verif.SpecMerge
import Verif.Lemmas.Merger
import Verif.Lemmas.Merge
import Verif.Lemmas.MergeKinds
import Verif.Lemmas.Summary
import Verif.Props.Merger
import Verif.Model.Transcoder
import Verif.Lemmas.Transcoder
import Verif.Props.Transcoder
import Verif.Model.Vcdiff
import Verif.SpecVcdiff
import Verif.Lemmas.Vcdiff
import Verif.Props.Vcdiff
import Verif.SpecEnd
import Verif.Props.EndToEnd
import Verif.Lemmas.Dict
import Verif.Props.Bounds
import Verif.Props.Headers
import Verif.Lemmas.Unchanged
import Verif.Props.Unchanged
import Verif.Lemmas.Writers
import Verif.Lemmas.Cut
import Verif.Props.Writers
import Verif.Model.Device
import Verif.Lemmas.Builds
import Verif.Lemmas.Device
import Verif.Props.Builds
import Verif.Props.Device
import Verif.Props.Size
import Verif.Props.Empty
import Verif.Model.Buffers
import Verif.Lemmas.Buffers
import Verif.Props.Buffers
import Verif.Model.Config
import Verif.Lemmas.Config
import Verif.Props.Config
import Verif.Model.Inputs
import Verif.Lemmas.Inputs
import Verif.Props.Inputs
import Verif.Lemmas.CommonStart
import Verif.Lemmas.CommonEnd
import Verif.Props.CommonStart
import Verif.Model.Streams
import Verif.SpecStreams
import Verif.Lemmas.Streams
import Verif.Lemmas.IntoInner
import Verif.Props.Streams
import Verif.Model.Writing
import Verif.SpecWriting
import Verif.Lemmas.Calls
import Verif.Lemmas.Writing
import Verif.Model.AnyInputs
import Verif.SpecAnyInputs
import Verif.Lemmas.AnyInputs
import Verif.Props.Writing
import Verif.Model.Memory
import Verif.Lemmas.Memory
import Verif.Props.Memory
import Verif.Lemmas.Endless
import Verif.Props.Endless
import Verif.SpecOrigin
import Verif.Lemmas.Origin
import Verif.Props.Origin
import Verif.SpecPieces
import Verif.Lemmas.Pieces
import Verif.Props.Pieces
import Verif.SpecPairs
import Verif.Lemmas.Pairs
import Verif.Props.Pairs
import Verif.Props.Grouping
import Verif.SpecPackaging
import Verif.Props.Packaging
import Verif.SpecIndex
import Verif.Props.Index
import Verif.SpecRepeat
import Verif.Props.Repeat
import Verif.SpecWindow
import Verif.Lemmas.Window
import Verif.Props.Window
import Verif.Lemmas.Runs
import Verif.Lemmas.Kept
import Verif.Lemmas.Coverage
import Verif.Props.Runs
import Verif.Props.Stored
import Verif.SpecStored
import Verif.Lemmas.Later
import Verif.Lemmas.Origins
import Verif.Props.Repetition
import Verif.SpecEdit
import Verif.Lemmas.Landmark
import Verif.Lemmas.BothEnds
import Verif.Props.OneEdit
import Verif.SpecEdits
import Verif.Lemmas.EditSearch
import Verif.Lemmas.EditCost
import Verif.Props.Edits
import Verif.Lemmas.PackSize
import Verif.Props.Packed
import Verif.SpecCarry
import Verif.Lemmas.Carry
import Verif.Props.Carry
import Verif.Lemmas.Kinds
import Verif.Props.Off
import Verif.SpecTranslate
import Verif.Props.Translate
import Verif.Model.Hash32
import Verif.Props.Hash32
import Verif.SpecFit
import Verif.Lemmas.Fit
import Verif.Props.Fit
import Verif.SpecSettled
import Verif.Lemmas.Settled
import Verif.Props.Same
import Verif.SpecEnds
import Verif.Props.Ends
import Verif.SpecFlow
import Verif.Props.Flow
import Verif.Props.Recipe
import Verif.SpecBack
import Verif.Lemmas.Rewrite
import Verif.Props.Rewrite
import Verif.SpecInPlace
import Verif.Lemmas.InPlace
import Verif.Props.InPlace
import Verif.Lemmas.Guard
import Verif.Props.Guard
import Verif.SpecJoin
import Verif.Props.Join
import Verif.Conformance
import Verif.Props.Kept
import Verif.Props.Parts
import Verif.Props.PartsComp
import Verif.Props.Unused
import Verif.Props.Fewest
import Verif.SpecBest
import Verif.Props.NearBest
