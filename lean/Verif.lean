import Verif.Py
import Verif.Spec.NDArray
import Verif.Model.Keys
import Verif.Model.NumPy
import Verif.Proofs.Keys
import Verif.Props.Keys
import Verif.Spec.Regions
import Verif.Model.Chunks
import Verif.Proofs.Chunks
import Verif.Props.Chunks
import Verif.Spec.Agg
import Verif.Model.Handlers
import Verif.Proofs.Handlers
import Verif.Props.Handlers
import Verif.Model.Arrays
import Verif.Spec.Combinators
import Verif.Spec.Den
import Verif.Proofs.Shape
import Verif.Proofs.Select
import Verif.Proofs.NodeAdapter
import Verif.Proofs.NodeBcast
import Verif.Proofs.NodeNewAxes
import Verif.Proofs.NodeGetitem
import Verif.Proofs.NodeTranspose
import Verif.Proofs.NodeStack
import Verif.Spec.Guards
import Verif.Proofs.NodeMosaic
import Verif.Proofs.Getitem
import Verif.Model.Eval
import Verif.Spec.EvalGuards
import Verif.Proofs.EvalLeaf
import Verif.Proofs.EvalNodes
import Verif.Proofs.Streams
import Verif.Proofs.EvalGood
import Verif.Proofs.ChunkKeys
import Verif.Proofs.EvalClosure
import Verif.Proofs.EvalClosed
import Verif.Proofs.Lawful
import Verif.Spec.Returns
import Verif.Proofs.Returns
import Verif.Proofs.Adapters
import Verif.Props.Adapters
import Verif.Spec.Clean
import Verif.Proofs.Kept
import Verif.Proofs.GetitemKept
import Verif.Proofs.Simple
import Verif.Spec.Broadcast
import Verif.Model.Stacks
import Verif.Proofs.Index
import Verif.Proofs.Compose
import Verif.Proofs.Broadcast
import Verif.Proofs.BroadcastArrays
import Verif.Proofs.Constructors
import Verif.Proofs.MultiStack
import Verif.Spec.Built
import Verif.Proofs.Built
import Verif.Props.Index
import Verif.Props.Containers
import Verif.Props.Containers2
import Verif.Props.Containers3
import Verif.Props.Compute
import Verif.Props.Elementwise
import Verif.Props.Save
import Verif.Props.Engine
import Verif.Props.EngineWitness
import Verif.Model.Group
import Verif.Spec.Groups
import Verif.Props.Groups
import Verif.Props.GroupsWitness
import Verif.Model.Misc
import Verif.Spec.Misc
import Verif.Props.Misc
import Verif.Model.Meta
import Verif.Spec.Meta
import Verif.Proofs.Meta
import Verif.Props.Meta
import Verif.Model.Ctors
import Verif.Props.Ctors
import Verif.Model.Grouper
import Verif.Spec.Grouper
import Verif.Proofs.Grouper
import Verif.Proofs.GrouperDim
import Verif.Proofs.GrouperSpec
import Verif.Proofs.GroupKeys
import Verif.Proofs.GroupKeysLoop
import Verif.Props.Grouper
import Verif.Props.Reads
import Verif.Model.Dask
import Verif.Spec.Dask
import Verif.Proofs.GroupProd
import Verif.Proofs.GroupProdKeys
import Verif.Proofs.DaskKeys
import Verif.Proofs.DaskCuts
import Verif.Proofs.DaskNodes
import Verif.Proofs.DaskHandle
import Verif.Proofs.DaskOps
import Verif.Proofs.DaskMake
import Verif.Proofs.DaskRun
import Verif.Props.Dask
import Verif.Props.Nested
import Verif.Props.Sharp
import Verif.Model.Mutable
import Verif.Spec.Mutable
import Verif.Proofs.Mutable
import Verif.Proofs.MutableRun
import Verif.Props.Mutable
import Verif.Proofs.SaveReads
import Verif.Proofs.CopyIso
import Verif.Props.SaveReads
import Verif.Props.SaveCrash
import Verif.Props.NumpyLeft
import Verif.Props.Pick
import Verif.Props.BroadcastExact
import Verif.Props.Ints
import Verif.Props.Exact
import Verif.Spec.Tiles
import Verif.Props.MosaicExact
import Verif.Props.StackExact
import Verif.Props.Witness
import Verif.Props.Casts
import Verif.Props.Threads
import Verif.Props.InPlace
import Verif.Props.InPlaceCrash
import Verif.Props.LateBinding
import Verif.Props.Memory
import Verif.Props.Iter
import Verif.Props.NestedLoops
import Verif.Props.Unmasked
import Verif.Props.NewAxesExact
import Verif.Props.Refuse
import Verif.Props.Floats
import Verif.Props.FloatsMasked
import Verif.Spec.Pieces
import Verif.Proofs.Pieces
import Verif.Props.Pieces
import Verif.Spec.Rounding
import Verif.Model.Rounding
import Verif.Proofs.Rounding
import Verif.Props.Rounding
import Verif.Proofs.RoundingStd
import Verif.Props.RoundingStd
import Verif.Proofs.RoundingVar
import Verif.Props.RoundingVar
import Verif.Check.RepoTests
import Verif.Check.RepoTests2
import Verif.Check.RepoTests3
import Verif.Model.FillEval
import Verif.Spec.Fill
import Verif.Props.Fill
import Verif.Props.Program
import Verif.Props.ProgramUse
import Verif.Model.Racing
import Verif.Spec.Racing
import Verif.Proofs.Racing
import Verif.Props.Racing
import Verif.Model.Changing
import Verif.Spec.Changing
import Verif.Proofs.Changing
import Verif.Props.Changing
import Verif.Props.AdaptersMask
import Verif.Props.MosaicChecks
import Verif.Spec.MosaicChecks
