import Verif.Base.Dict
import Verif.Base.Name
import Verif.Base.Shp
import Verif.Base.Sum
import Verif.Spec.Adjoint
import Verif.Spec.Canonical
import Verif.Spec.Contract
import Verif.Spec.ContractFull
import Verif.Spec.Copy
import Verif.Spec.Density
import Verif.Spec.Einsum
import Verif.Spec.Engine
import Verif.Spec.Evolve
import Verif.Spec.Expand
import Verif.Spec.Index
import Verif.Spec.Kraus
import Verif.Spec.Leaves
import Verif.Spec.Measure
import Verif.Spec.Network
import Verif.Spec.Noise
import Verif.Spec.Operation
import Verif.Spec.Order
import Verif.Spec.PathCost
import Verif.Spec.Ptm
import Verif.Spec.Qaoa
import Verif.Spec.QaoaState
import Verif.Spec.Qsim
import Verif.Spec.Ranges
import Verif.Spec.Ready
import Verif.Spec.Shape
import Verif.Spec.Slices
import Verif.Spec.Slicing
import Verif.Spec.Subscripts
import Verif.Spec.SumShape
import Verif.Spec.Total
import Verif.Spec.Trace
import Verif.Spec.Value
import Verif.Spec.Wires
import Verif.Model.Adjoint
import Verif.Model.Algebra
import Verif.Model.Circuit
import Verif.Model.Compile
import Verif.Model.Contract
import Verif.Model.ContractFull
import Verif.Model.Convert
import Verif.Model.Copy
import Verif.Model.Cost
import Verif.Model.Decoder
import Verif.Model.Delta
import Verif.Model.Density
import Verif.Model.Equal
import Verif.Model.Expand
import Verif.Model.FinalMeasure
import Verif.Model.Finder
import Verif.Model.Flip
import Verif.Model.Gates
import Verif.Model.Ghz
import Verif.Model.Grcs
import Verif.Model.Idle
import Verif.Model.Khp
import Verif.Model.Kraus
import Verif.Model.Measure
import Verif.Model.NoisyRound
import Verif.Model.Norm
import Verif.Model.Operation
import Verif.Model.Ops
import Verif.Model.Orders
import Verif.Model.Patch
import Verif.Model.PathChoice
import Verif.Model.PrintOrder
import Verif.Model.Qaoa
import Verif.Model.Readout
import Verif.Model.Ready
import Verif.Model.Scheme
import Verif.Model.Slicer
import Verif.Model.Stem
import Verif.Model.Subscripts
import Verif.Model.Sum
import Verif.Model.Surface
import Verif.Model.TN
import Verif.Model.Task
import Verif.Model.Timeline
import Verif.Model.Uct
import Verif.Model.Valid
import Verif.Model.Value
import Verif.Lemmas.Absorb
import Verif.Lemmas.AddNode
import Verif.Lemmas.AddTotal
import Verif.Lemmas.Algebra
import Verif.Lemmas.Armed
import Verif.Lemmas.Cells
import Verif.Lemmas.CircMat
import Verif.Lemmas.Collapse
import Verif.Lemmas.CompileOk
import Verif.Lemmas.Compiled
import Verif.Lemmas.Cone
import Verif.Lemmas.Consistent
import Verif.Lemmas.Contract
import Verif.Lemmas.Control
import Verif.Lemmas.ControlCirc
import Verif.Lemmas.ControlEvolve
import Verif.Lemmas.Convert
import Verif.Lemmas.ConvertLoop
import Verif.Lemmas.ConvertMoor
import Verif.Lemmas.ConvertNet
import Verif.Lemmas.Copy
import Verif.Lemmas.CtrlMat
import Verif.Lemmas.Delta
import Verif.Lemmas.DensEvolve
import Verif.Lemmas.DensLoop
import Verif.Lemmas.DensPure
import Verif.Lemmas.DensWhole
import Verif.Lemmas.Dims
import Verif.Lemmas.Duality
import Verif.Lemmas.Einsum
import Verif.Lemmas.Encaps
import Verif.Lemmas.EncapsAlong
import Verif.Lemmas.Evolve
import Verif.Lemmas.Exec
import Verif.Lemmas.Execute
import Verif.Lemmas.Expand
import Verif.Lemmas.ExpandLoop
import Verif.Lemmas.Expr
import Verif.Lemmas.FinalMeasure
import Verif.Lemmas.FixAll
import Verif.Lemmas.FixIndex
import Verif.Lemmas.FixShort
import Verif.Lemmas.Flat
import Verif.Lemmas.Heap
import Verif.Lemmas.Isometric
import Verif.Lemmas.Join
import Verif.Lemmas.Khp
import Verif.Lemmas.KhpSimplify
import Verif.Lemmas.Later
import Verif.Lemmas.Levels
import Verif.Lemmas.Loose
import Verif.Lemmas.Means
import Verif.Lemmas.Measure
import Verif.Lemmas.Merge
import Verif.Lemmas.Nest
import Verif.Lemmas.NestCirc
import Verif.Lemmas.Noise
import Verif.Lemmas.Norm
import Verif.Lemmas.OperAdj
import Verif.Lemmas.Operation
import Verif.Lemmas.OrderMoves
import Verif.Lemmas.Orders
import Verif.Lemmas.PatchOk
import Verif.Lemmas.PatchOrder
import Verif.Lemmas.Path
import Verif.Lemmas.PinGroup
import Verif.Lemmas.QaoaNet
import Verif.Lemmas.QaoaValue
import Verif.Lemmas.Radix
import Verif.Lemmas.Reshape
import Verif.Lemmas.Retarget
import Verif.Lemmas.Sketch
import Verif.Lemmas.Slice
import Verif.Lemmas.SlicerEdge
import Verif.Lemmas.SlicerLoop
import Verif.Lemmas.SlicerSpan
import Verif.Lemmas.SlicerTree
import Verif.Lemmas.Solid
import Verif.Lemmas.SolidConj
import Verif.Lemmas.SolidOps
import Verif.Lemmas.StemDig
import Verif.Lemmas.StemMerge
import Verif.Lemmas.StemOrder
import Verif.Lemmas.StemTree
import Verif.Lemmas.Subtn
import Verif.Lemmas.Syndrome
import Verif.Lemmas.TN
import Verif.Lemmas.Template
import Verif.Lemmas.Tot
import Verif.Lemmas.Trace
import Verif.Lemmas.UctBranch
import Verif.Lemmas.UctCost
import Verif.Lemmas.UctInit
import Verif.Lemmas.UctInv
import Verif.Lemmas.UctMake
import Verif.Lemmas.UctPath
import Verif.Lemmas.UctStem
import Verif.Lemmas.UctStep
import Verif.Lemmas.UctSwitch
import Verif.Lemmas.UctTree
import Verif.Lemmas.UctUndo
import Verif.Lemmas.UctUnique
import Verif.Lemmas.Value
import Verif.Props.Adjoint
import Verif.Props.Algebra
import Verif.Props.Appended
import Verif.Props.Atomic
import Verif.Props.CodeState
import Verif.Props.Conj
import Verif.Props.Contract
import Verif.Props.ContractFull
import Verif.Props.ContractTotal
import Verif.Props.Controlled
import Verif.Props.Convert
import Verif.Props.Copy
import Verif.Props.Cost
import Verif.Props.Decoder
import Verif.Props.Delta
import Verif.Props.DensPure
import Verif.Props.Density
import Verif.Props.Dims
import Verif.Props.Distance
import Verif.Props.Encapsulate
import Verif.Props.Equal
import Verif.Props.Expand
import Verif.Props.FinalMeasure
import Verif.Props.Finder
import Verif.Props.Fix
import Verif.Props.FixMerge
import Verif.Props.FixObjects
import Verif.Props.Flip
import Verif.Props.FlipOrder
import Verif.Props.Gates
import Verif.Props.Ghz
import Verif.Props.Grcs
import Verif.Props.GrcsCases
import Verif.Props.GrcsGates
import Verif.Props.History
import Verif.Props.Idle
import Verif.Props.Khp
import Verif.Props.Kraus
import Verif.Props.Measure
import Verif.Props.Nest
import Verif.Props.Noise
import Verif.Props.NoisyRound
import Verif.Props.Norm
import Verif.Props.OperContract
import Verif.Props.Operation
import Verif.Props.Operators
import Verif.Props.Orders
import Verif.Props.Overlap
import Verif.Props.Patch
import Verif.Props.PathChoice
import Verif.Props.PrintOrder
import Verif.Props.Qaoa
import Verif.Props.Readout
import Verif.Props.Ready
import Verif.Props.Schedule
import Verif.Props.Scheme
import Verif.Props.Sequence
import Verif.Props.ShapeEdits
import Verif.Props.Slicer
import Verif.Props.SlicerChoice
import Verif.Props.Stabilizer
import Verif.Props.StabilizerCirc
import Verif.Props.Stem
import Verif.Props.Subscripts
import Verif.Props.Sum
import Verif.Props.Task
import Verif.Props.Timeline
import Verif.Props.Trace
import Verif.Props.Uct
import Verif.Props.Valid
import Verif.Props.Wires
