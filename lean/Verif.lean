import Verif.Props.Bitmap
import Verif.Props.Buffers
import Verif.Props.Varint
import Verif.Props.Rle
import Verif.Props.RleFrames
import Verif.Props.RleCanonical
import Verif.Props.RleReflush
import Verif.Props.ReadMemory
import Verif.Props.Damage
import Verif.Props.DamageRelease
import Verif.Props.Documented
import Verif.Props.Interrupted
import Verif.Props.BitmapMemory
import Verif.Props.Reproducible
import Verif.Props.ColumnIndex
import Verif.Props.RowTotal
import Verif.Props.Offsets
import Verif.Props.PrimitiveEnc
import Verif.Props.PrimitiveExact
import Verif.Props.PrimitiveWrap
import Verif.Props.PrimitiveWritten
import Verif.Props.BinaryEnc
import Verif.Props.AnyReader
import Verif.Props.StoredExact
import Verif.Props.BinaryExact
import Verif.Props.EncoderSink
import Verif.Props.Mismatch
import Verif.Props.Retry
import Verif.Props.RetryHeld
import Verif.Props.BlockSizes
import Verif.Props.Cancel
import Verif.Props.AfterFailure
import Verif.Props.Dropped
import Verif.Props.Torn
import Verif.Props.EmptyBuffer
import Verif.Props.Inverted
import Verif.Props.NullHistory
import Verif.Props.AnyBitmap
import Verif.Props.AnyBinary
import Verif.Props.AnyBuffer
import Verif.Props.Leftovers
import Verif.Props.Listed
import Verif.Props.FilesAlone
import Verif.Props.BlockWriter
import Verif.Props.BlockReader
import Verif.Props.Segment
import Verif.Props.SegmentMeta
import Verif.Props.EncodingChoice
import Verif.Props.Crash
import Verif.Props.Recover
import Verif.Props.RecoverExact
import Verif.Props.History
import Verif.Props.SegmentFailures
import Verif.Props.Metadata
import Verif.Props.SegmentName
import Verif.Props.SameId
import Verif.Props.Unwind
import Verif.Props.Refused
import Verif.Props.Store
import Verif.Props.Seeds
import Verif.Props.Server
import Verif.Tests.RepoTests
import Verif.Props.Overhead
import Verif.Props.Amplify
import Verif.Props.Reflush
import Verif.Props.ReflushCalls
import Verif.Props.Profiles
import Verif.Props.ElementBytes
import Verif.Props.BinaryCompletes
import Verif.Props.BinaryWritten
import Verif.Props.AppendReturns
import Verif.Props.Batching
import Verif.Props.Live
import Verif.Props.Lookup
import Verif.Props.LookupSegment
import Verif.Props.Alike
import Verif.Props.Narrow
import Verif.Props.DirCrash
import Verif.Props.Stdout
import Verif.Props.RleSteps
import Verif.Props.Held
import Verif.Props.Schema
import Verif.Props.WithValidity
import Verif.Props.VolumeBound
import Verif.Props.CloseTwice
import Verif.Props.Offered
import Verif.Props.AnyCalls
import Verif.Props.RowTotalRelease
import Verif.Props.EncSteps
import Verif.Props.LargeBuffer
import Verif.Props.WriterFails
import Verif.Props.BinaryRowIds
import Verif.Props.BinarySteps
import Verif.Props.FillSteps
import Verif.Props.AllValid
import Verif.Props.OneBlock
import Verif.Props.MoreRows
import Verif.Props.MoreRowsFile
import Verif.Props.SameRows
import Verif.Props.CutShort
import Verif.Props.InParts
import Verif.Props.IndexSize
import Verif.Props.ColumnOrder
import Verif.Props.Idle
import Verif.Props.DroppedRetry
