import Verif.Accuracy
import Verif.AdjointGrad
import Verif.BetaInit
import Verif.BetaInitProps
import Verif.Bowtie
import Verif.BowtieProps
import Verif.BoxMask
import Verif.Butterfly
import Verif.ButterflyLimits
import Verif.ButterflyProps
import Verif.ButterflyRandom
import Verif.CascadeErrors
import Verif.CascadeHaar
import Verif.CascadeLemmas
import Verif.CascadeNodes
import Verif.CascadeProps
import Verif.CascadeRandom
import Verif.ColumnOrdered
import Verif.Compose
import Verif.Constructors
import Verif.CosSineProps
import Verif.Coupling
import Verif.CouplingLemmas
import Verif.CouplingProps
import Verif.Dft
import Verif.DirichletProps
import Verif.Embedded
import Verif.Envelope
import Verif.EnvelopeProps
import Verif.ExactGrid
import Verif.Fdfd
import Verif.FdfdLinear
import Verif.FdfdPowerProps
import Verif.FdfdProps
import Verif.FdfdStable
import Verif.Fdtd
import Verif.FdtdCausal
import Verif.FdtdDriven
import Verif.FdtdEnergy
import Verif.FdtdHeap
import Verif.FdtdHeapProps
import Verif.FdtdPmlProps
import Verif.FdtdProps
import Verif.FdtdRounding
import Verif.FdtdSources
import Verif.FdtdSteady
import Verif.FrobLemmas
import Verif.GaussFft
import Verif.Grid
import Verif.GridHistory
import Verif.GridProps
import Verif.HaarLaw
import Verif.HaarMesh
import Verif.HaarNetworks
import Verif.HaarProgram
import Verif.HaarRectangular
import Verif.HaarSwap
import Verif.HaarVector
import Verif.HaarWords
import Verif.HessDist
import Verif.Hessian
import Verif.HessianC105
import Verif.HessianCalc
import Verif.HessianFd
import Verif.HessianFdProps
import Verif.HessianProps
import Verif.HessianRun
import Verif.HessianTree
import Verif.Identify
import Verif.InSitu
import Verif.InSituGrad
import Verif.InSituLemmas
import Verif.InSituNoise
import Verif.InSituNoiseProps
import Verif.InSituProps
import Verif.InSituShot
import Verif.Layer
import Verif.LayerProps
import Verif.LineIdent
import Verif.Lru
import Verif.LruProps
import Verif.MatrixDecomp
import Verif.MatrixOpt
import Verif.Mesh
import Verif.MeshClassical
import Verif.MeshError
import Verif.MeshEval
import Verif.MeshEvalProps
import Verif.MeshExplicit
import Verif.MeshExtras
import Verif.MeshExtrasProps
import Verif.MeshHeap
import Verif.MeshHeapProps
import Verif.MeshJax
import Verif.MeshLemmas
import Verif.MeshLoss
import Verif.MeshLossNoise
import Verif.MeshNoise
import Verif.MeshProps
import Verif.MeshRobust
import Verif.MeshSpread
import Verif.MirrorProps
import Verif.Mode
import Verif.ModeAccess
import Verif.ModeBounds
import Verif.ModeFlat
import Verif.ModeFundamental
import Verif.ModeHeap
import Verif.ModeMaxwell
import Verif.ModeOrtho
import Verif.ModePerturb
import Verif.ModePolar
import Verif.ModeProps
import Verif.ModeSearch
import Verif.ModeSymmetry
import Verif.NullBasis
import Verif.NullBasisLemmas
import Verif.NullBasisProps
import Verif.Nullify
import Verif.NullifyExact
import Verif.NullifyProps
import Verif.NullifyStyleProps
import Verif.Opt
import Verif.OptPhase
import Verif.OptProps
import Verif.Parallel
import Verif.Pardiso
import Verif.PardisoProps
import Verif.Parse
import Verif.ParseProps
import Verif.Pattern
import Verif.PatternProps
import Verif.PlaneWave
import Verif.PmlPowerProps
import Verif.PortLabels
import Verif.Primitives
import Verif.PrimitivesLemmas
import Verif.PrimitivesProps
import Verif.Pulse
import Verif.RandomTree
import Verif.RandomTreeProps
import Verif.RandomVector
import Verif.Reciprocal
import Verif.ReciprocityProps
import Verif.Recorded
import Verif.RectExtras
import Verif.RectExtrasProps
import Verif.RectFlow
import Verif.RectLoop
import Verif.RectPowers
import Verif.RectProps
import Verif.Rectangular
import Verif.Rounding
import Verif.ScaleProps
import Verif.Sim
import Verif.SimAxes
import Verif.SimCalls
import Verif.SimCallsProps
import Verif.SimProps
import Verif.Sparams
import Verif.SparamsProps
import Verif.SymmetryProps
import Verif.TileProps
import Verif.TimeReversal
import Verif.Transform
import Verif.TransformProps
import Verif.Tree
import Verif.TreeExec
import Verif.TreeLemmas
import Verif.TreeProps
import Verif.Utils
import Verif.UtilsProps
import Verif.Vector
import Verif.VectorErrors
import Verif.VectorLemmas
import Verif.VectorLoss
import Verif.VectorProgram
import Verif.VectorProps
import Verif.VectorReach
import Verif.Viz
import Verif.Viz1d
import Verif.Yee
import Verif.YeeFlat
import Verif.YeeLemmas
import Verif.YeeProps
