import Verif.Props.Integers
import Verif.Props.Serialization
import Verif.Props.RoundTrip
import Verif.Props.Revision
import Verif.Props.RevisionLog
import Verif.Props.Robust
import Verif.Props.Fields
import Verif.Props.Fixed
import Verif.Props.Text
import Verif.Props.Log
import Verif.Props.Replay
import Verif.Props.ReplayQuiet
import Verif.Props.Sync
import Verif.Props.Collections
import Verif.Props.Parts
import Verif.Props.Setters
import Verif.Props.Defects
import Verif.Props.Equality
import Verif.Props.Maybe
import Verif.Props.Threads
import Verif.Props.Declaration
import Verif.Props.Collect
import Verif.Props.Generated
import Verif.Props.Tables
import Verif.Props.CSharp
import Verif.Props.CSharpReplay
import Verif.Props.CSharpEvents
import Verif.Props.CSharpRevision
import Verif.Props.Attempt
import Verif.Conformance.RustTests
import Verif.Conformance.TestCrate
import Verif.Conformance.Declarations
import Verif.Conformance.GeneratedFiles
import Verif.Props.CutLog
import Verif.Props.Reader
import Verif.Props.Sink
import Verif.Model.Recursive
import Verif.Spec.Recursive
import Verif.Lemmas.RecursiveDict
import Verif.Lemmas.RecursiveDerive
import Verif.Lemmas.Recursive
import Verif.Lemmas.RecursiveOps
import Verif.Lemmas.EntryWeight
import Verif.Lemmas.Unroll
import Verif.Props.Recursive
import Verif.Spec.Cut
import Verif.Lemmas.CutLaw
import Verif.Lemmas.CutImpls
import Verif.Lemmas.CutMaps
import Verif.Lemmas.CutDerive
import Verif.Lemmas.CutTy
import Verif.Props.Cut
import Verif.Model.GenFiles
import Verif.Spec.GenFiles
import Verif.Lemmas.GenFiles
import Verif.Props.GenFiles
import Verif.Model.FieldMeta
import Verif.Spec.FieldMeta
import Verif.Lemmas.FieldMeta
import Verif.Props.FieldMeta
import Verif.Props.Members
import Verif.Model.Classes
import Verif.Lemmas.LinesGen
import Verif.Lemmas.BodiesGen
import Verif.Spec.Bodies
import Verif.Model.LogEntryFile
import Verif.Model.MaybeFile
import Verif.Model.Replayer
import Verif.Spec.Classes
import Verif.Lemmas.Classes
import Verif.Lemmas.ClassesRead
import Verif.Lemmas.ClassesReplay
import Verif.Lemmas.ClassesLog
import Verif.Lemmas.ClassesTypes
import Verif.Lemmas.ClassesGen
import Verif.Lemmas.ClassesRuns
import Verif.Props.Classes
import Verif.Props.ClassesShipped
import Verif.Props.Bodies
import Verif.Props.Replayer
import Verif.Props.Constants
import Verif.Props.Opening
import Verif.Props.Clearing
import Verif.Props.Constructors
import Verif.Props.CSharpCut
import Verif.Model.AsWritten
import Verif.Spec.AsWritten
import Verif.Lemmas.AsWritten
import Verif.Props.AsWritten
import Verif.Model.DeriveCode
import Verif.Spec.DeriveCode
import Verif.Lemmas.DeriveCode
import Verif.Lemmas.DeriveNames
import Verif.Lemmas.DeriveCompile
import Verif.Lemmas.DeriveStruct
import Verif.Lemmas.DeriveEnum
import Verif.Lemmas.DeriveArms
import Verif.Lemmas.DeriveValues
import Verif.Lemmas.DeriveExact
import Verif.Props.DeriveCode
import Verif.Spec.Relay
import Verif.Spec.Weight
import Verif.Lemmas.Keep
import Verif.Lemmas.KeepDerive
import Verif.Lemmas.Objects
import Verif.Lemmas.Grow
import Verif.Lemmas.GrowDerive
import Verif.Lemmas.WeightEncode
import Verif.Props.Relay
import Verif.Model.Bounds
import Verif.Model.Opaque
import Verif.Spec.Bounds
import Verif.Spec.Opaque
import Verif.Spec.Order
import Verif.Spec.Limit
import Verif.Lemmas.Bounds
import Verif.Lemmas.BoundsExact
import Verif.Lemmas.BoundsPlain
import Verif.Lemmas.BoundsWritten
import Verif.Lemmas.BoundsDecide
import Verif.Lemmas.Opaque
import Verif.Props.Bounds
import Verif.Props.Broken
import Verif.Props.States
import Verif.Props.Drift
import Verif.Props.ClientSize
import Verif.Props.Again
import Verif.Props.Agreement
import Verif.Props.Opaque
import Verif.Lemmas.Shuffle
import Verif.Lemmas.ShuffleTy
import Verif.Lemmas.ShuffleVeil
import Verif.Lemmas.Wrap
import Verif.Lemmas.Limit
import Verif.Props.Order
import Verif.Props.Limit
import Verif.Spec.Record
import Verif.Lemmas.Record
import Verif.Props.Record
import Verif.Spec.Compact
import Verif.Lemmas.Compact
import Verif.Props.Compact
import Verif.Spec.CompactCs
import Verif.Lemmas.CompactCs
import Verif.Lemmas.CompactTold
import Verif.Props.CompactCs
import Verif.Lemmas.CompactFound
import Verif.Lemmas.CompactSays
import Verif.Props.CompactLog
import Verif.Props.CompactLogCs
import Verif.Spec.Peers
import Verif.Lemmas.Commute
import Verif.Lemmas.Peers
import Verif.Lemmas.PeersTogether
import Verif.Props.Peers
import Verif.Spec.PeersKeys
import Verif.Lemmas.Jumble
import Verif.Lemmas.PeersKeys
import Verif.Props.PeersKeys
import Verif.Spec.PeersJoin
import Verif.Props.PeersJoin
