import Verif.Audit
import Verif.Bits
import Verif.Conformance
import Verif.ConformanceDocs
import Verif.ConformanceImpls
import Verif.Lemmas.Append
import Verif.Lemmas.AppendHas
import Verif.Lemmas.AppendSource
import Verif.Lemmas.Arith
import Verif.Lemmas.ArithBoth
import Verif.Lemmas.ArithExpr
import Verif.Lemmas.Asserts
import Verif.Lemmas.Bits
import Verif.Lemmas.Bounded
import Verif.Lemmas.Busy
import Verif.Lemmas.CString
import Verif.Lemmas.Calls
import Verif.Lemmas.Candid
import Verif.Lemmas.Canon
import Verif.Lemmas.Chain
import Verif.Lemmas.Codec
import Verif.Lemmas.Conform
import Verif.Lemmas.Consistent
import Verif.Lemmas.ConsistentTypes
import Verif.Lemmas.Containers
import Verif.Lemmas.Conv
import Verif.Lemmas.CoreAccept
import Verif.Lemmas.CoreFits
import Verif.Lemmas.CoreFlow
import Verif.Lemmas.CoreQuiet
import Verif.Lemmas.CoreSafe
import Verif.Lemmas.CoreSize
import Verif.Lemmas.CoreStream
import Verif.Lemmas.CoreTyped
import Verif.Lemmas.Counts
import Verif.Lemmas.DekuId
import Verif.Lemmas.Emit
import Verif.Lemmas.Endless
import Verif.Lemmas.Envelope
import Verif.Lemmas.Examples
import Verif.Lemmas.Faithful
import Verif.Lemmas.FaithfulTypes
import Verif.Lemmas.Faults
import Verif.Lemmas.FitsSound
import Verif.Lemmas.FromBytes
import Verif.Lemmas.Grow
import Verif.Lemmas.GrowSource
import Verif.Lemmas.Hash
import Verif.Lemmas.Hoare
import Verif.Lemmas.Int
import Verif.Lemmas.IntCodec
import Verif.Lemmas.IntRound
import Verif.Lemmas.IntWrite
import Verif.Lemmas.Io
import Verif.Lemmas.IoOut
import Verif.Lemmas.Jumps
import Verif.Lemmas.Laws
import Verif.Lemmas.Layer
import Verif.Lemmas.Leaves
import Verif.Lemmas.Lengths
import Verif.Lemmas.Locality
import Verif.Lemmas.Maps
import Verif.Lemmas.Mixed
import Verif.Lemmas.MixedInt
import Verif.Lemmas.MixedRead
import Verif.Lemmas.Monad
import Verif.Lemmas.Names
import Verif.Lemmas.NoBits
import Verif.Lemmas.NoBitsSource
import Verif.Lemmas.NoSeek
import Verif.Lemmas.Offset
import Verif.Lemmas.Parse
import Verif.Lemmas.ParseAvoids
import Verif.Lemmas.ParseClear
import Verif.Lemmas.Patch
import Verif.Lemmas.Pieces
import Verif.Lemmas.Play
import Verif.Lemmas.Portable
import Verif.Lemmas.PortableTypes
import Verif.Lemmas.Position
import Verif.Lemmas.Quiet
import Verif.Lemmas.ReadAllEnds
import Verif.Lemmas.ReadAllParse
import Verif.Lemmas.ReadAllSource
import Verif.Lemmas.Reader
import Verif.Lemmas.Receive
import Verif.Lemmas.Recursive
import Verif.Lemmas.Regroup
import Verif.Lemmas.RegroupLaws
import Verif.Lemmas.Release
import Verif.Lemmas.ReleaseMaps
import Verif.Lemmas.Rename
import Verif.Lemmas.Safe
import Verif.Lemmas.Select
import Verif.Lemmas.Shared
import Verif.Lemmas.SharedBody
import Verif.Lemmas.SharedList
import Verif.Lemmas.SharedStruct
import Verif.Lemmas.Sink
import Verif.Lemmas.Sint
import Verif.Lemmas.Size
import Verif.Lemmas.Sized
import Verif.Lemmas.SizedRead
import Verif.Lemmas.SizedSigned
import Verif.Lemmas.Source
import Verif.Lemmas.Switch
import Verif.Lemmas.Talk
import Verif.Lemmas.Tell
import Verif.Lemmas.Text
import Verif.Lemmas.Truncate
import Verif.Lemmas.Updating
import Verif.Lemmas.Vec
import Verif.Lemmas.Weight
import Verif.Lemmas.Wire
import Verif.Lemmas.Writer
import Verif.Lemmas.WriterTotal
import Verif.Lemmas.Yields
import Verif.Model.Arith
import Verif.Model.Bounded
import Verif.Model.Containers
import Verif.Model.Core
import Verif.Model.Derive
import Verif.Model.Discriminant
import Verif.Model.Emit
import Verif.Model.Envelope
import Verif.Model.Error
import Verif.Model.Hash
import Verif.Model.Io
import Verif.Model.Layer
import Verif.Model.Leaves
import Verif.Model.Names
import Verif.Model.NoBits
import Verif.Model.NoSeek
import Verif.Model.Primitive
import Verif.Model.Reader
import Verif.Model.Recursive
import Verif.Model.Release
import Verif.Model.ReleaseMaps
import Verif.Model.Seek
import Verif.Model.Sized
import Verif.Model.Source
import Verif.Model.Stream
import Verif.Model.Text
import Verif.Model.Toplevel
import Verif.Model.Tuple
import Verif.Model.Unsafe
import Verif.Model.Update
import Verif.Model.VariantFns
import Verif.Model.Writer
import Verif.Props.Append
import Verif.Props.Arith
import Verif.Props.Attributes
import Verif.Props.Bounded
import Verif.Props.Calls
import Verif.Props.Candid
import Verif.Props.Canon
import Verif.Props.Chain
import Verif.Props.Conform
import Verif.Props.Consistent
import Verif.Props.Core
import Verif.Props.CoreEnum
import Verif.Props.CoreRead
import Verif.Props.CoreStream
import Verif.Props.DekuId
import Verif.Props.Derive
import Verif.Props.Discriminant
import Verif.Props.Emit
import Verif.Props.Envelope
import Verif.Props.Errors
import Verif.Props.ExampleEnum
import Verif.Props.ExampleFrame
import Verif.Props.ExampleMain
import Verif.Props.Examples
import Verif.Props.Faithful
import Verif.Props.Faults
import Verif.Props.Grow
import Verif.Props.Hash
import Verif.Props.Int
import Verif.Props.IntExact
import Verif.Props.Io
import Verif.Props.IoOut
import Verif.Props.Jumps
import Verif.Props.Lengths
import Verif.Props.Map
import Verif.Props.Maps
import Verif.Props.Mixed
import Verif.Props.MixedInt
import Verif.Props.MixedRead
import Verif.Props.Names
import Verif.Props.NoBits
import Verif.Props.NoSeek
import Verif.Props.Offset
import Verif.Props.Parse
import Verif.Props.Patch
import Verif.Props.Play
import Verif.Props.Portable
import Verif.Props.Position
import Verif.Props.Quiet
import Verif.Props.ReadAll
import Verif.Props.Reader
import Verif.Props.Receive
import Verif.Props.Recursive
import Verif.Props.Regroup
import Verif.Props.Release
import Verif.Props.ReleaseMaps
import Verif.Props.Safe
import Verif.Props.Seek
import Verif.Props.Shared
import Verif.Props.SharedBody
import Verif.Props.SharedInt
import Verif.Props.SharedList
import Verif.Props.SharedStruct
import Verif.Props.Size
import Verif.Props.Sized
import Verif.Props.SizedSigned
import Verif.Props.Skip
import Verif.Props.Source
import Verif.Props.Text
import Verif.Props.Truncate
import Verif.Props.Tuple
import Verif.Props.Unsafe
import Verif.Props.Update
import Verif.Props.VariantFns
import Verif.Props.Vec
import Verif.Props.Weight
import Verif.Props.Wire
import Verif.Props.Wrappers
import Verif.Props.Writer
import Verif.Spec.Append
import Verif.Spec.Arith
import Verif.Spec.Asserts
import Verif.Spec.Attributes
import Verif.Spec.Bounded
import Verif.Spec.Calls
import Verif.Spec.Candid
import Verif.Spec.Canon
import Verif.Spec.Chain
import Verif.Spec.Codec
import Verif.Spec.Conform
import Verif.Spec.Consistent
import Verif.Spec.Core
import Verif.Spec.CoreEnum
import Verif.Spec.CoreFlow
import Verif.Spec.CoreSafe
import Verif.Spec.CoreStream
import Verif.Spec.Emit
import Verif.Spec.Envelope
import Verif.Spec.Faithful
import Verif.Spec.Faults
import Verif.Spec.Format
import Verif.Spec.Grow
import Verif.Spec.Int
import Verif.Spec.Io
import Verif.Spec.Jumps
import Verif.Spec.Laws
import Verif.Spec.Layer
import Verif.Spec.Lengths
import Verif.Spec.Locality
import Verif.Spec.Mixed
import Verif.Spec.MixedRead
import Verif.Spec.Names
import Verif.Spec.NoBits
import Verif.Spec.NoSeek
import Verif.Spec.Offset
import Verif.Spec.Output
import Verif.Spec.Parse
import Verif.Spec.Patch
import Verif.Spec.Play
import Verif.Spec.Portable
import Verif.Spec.Position
import Verif.Spec.Program
import Verif.Spec.Quiet
import Verif.Spec.ReadAll
import Verif.Spec.Receive
import Verif.Spec.Recursive
import Verif.Spec.Regroup
import Verif.Spec.Release
import Verif.Spec.Rename
import Verif.Spec.Safe
import Verif.Spec.Sequence
import Verif.Spec.Shared
import Verif.Spec.SharedBody
import Verif.Spec.SharedInt
import Verif.Spec.SharedList
import Verif.Spec.SharedStruct
import Verif.Spec.Sink
import Verif.Spec.Size
import Verif.Spec.Sized
import Verif.Spec.Skip
import Verif.Spec.Source
import Verif.Spec.Stream
import Verif.Spec.Talk
import Verif.Spec.Truncate
import Verif.Spec.Unsafe
import Verif.Spec.Update
import Verif.Spec.Weight
import Verif.Spec.Wire
