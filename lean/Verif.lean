import Verif.Props.FastUpdate
import Verif.Props.Removal
import Verif.Props.Replace
import Verif.Props.Safe
import Verif.Props.Flavor
import Verif.Props.Submatrix
import Verif.Props.Sort
import Verif.Props.Clustering
import Verif.Props.Random
import Verif.Props.PairDist
import Verif.Props.Manager
import Verif.Props.Balance
import Verif.Props.Global
import Verif.Props.Statistics
import Verif.Props.RunLoop
import Verif.Props.Spline
import Verif.Props.Legendre
import Verif.Props.Green
import Verif.Props.GreenRead
import Verif.Props.GreenText
import Verif.Model.GlobalText
import Verif.Spec.GlobalText
import Verif.Props.GlobalText
import Verif.Props.Measure
import Verif.Props.Density
import Verif.Props.Binning
import Verif.Props.UMatrix
import Verif.Props.Config
import Verif.Props.Resizable
import Verif.Props.DetMatrix
import Verif.Props.Partitioned
import Verif.Props.Matsubara
import Verif.Props.Streams
import Verif.Props.SpinFlip
import Verif.Spec.Ensemble
import Verif.Proofs.Points
import Verif.Proofs.Ensemble
import Verif.Proofs.EnsembleMove
import Verif.Proofs.MoveKernels
import Verif.Proofs.Sampler
import Verif.Proofs.SimInsRem
import Verif.Proofs.SimMoves
import Verif.Proofs.SimCode
import Verif.Proofs.SimRun
import Verif.Proofs.EnsembleFinite
import Verif.Proofs.TableG0
import Verif.Props.Ensemble
import Verif.Model.Observables
import Verif.Spec.Observables
import Verif.Proofs.Times
import Verif.Proofs.Observables
import Verif.Props.Observables
import Verif.Spec.Average
import Verif.Proofs.Average
import Verif.Proofs.AverageValues
import Verif.Proofs.AverageSelf
import Verif.Props.Average
import Verif.Model.ReplaceRC
import Verif.Spec.ReplaceRC
import Verif.Proofs.ReplaceRC
import Verif.Proofs.ReplaceSucc
import Verif.Proofs.PlaceRC
import Verif.Props.ReplaceRC
import Verif.Model.PairGen
import Verif.Proofs.Rejection
import Verif.Props.Rejection
import Verif.Props.PairGen
import Verif.Spec.Converge
import Verif.Proofs.Doeblin
import Verif.Proofs.MeanSquare
import Verif.Proofs.Minor
import Verif.Proofs.Centre
import Verif.Proofs.Absorb
import Verif.Props.Converge
import Verif.Model.Simulation
import Verif.Spec.Simulation
import Verif.Model.Postprocess
import Verif.Spec.Postprocess
import Verif.Proofs.StrongLaw
import Verif.Proofs.RecordStep
import Verif.Proofs.Simulate
import Verif.Proofs.SettleValues
import Verif.Proofs.Settle
import Verif.Props.Settle
import Verif.Props.Debug
import Verif.Props.LU
import Verif.Proofs.TwoDensities
import Verif.Proofs.Postprocess
import Verif.Props.Postprocess
import Verif.Spec.SelfComplex
import Verif.Proofs.SelfComplex
import Verif.Props.SelfComplex
import Verif.Model.Names
import Verif.Spec.Names
import Verif.Proofs.Names
import Verif.Props.Names
import Verif.Model.DebugSim
import Verif.Model.DebugGreen
import Verif.Proofs.DebugSim
import Verif.Proofs.DebugGreen
import Verif.Props.DebugSim
import Verif.Props.SplineUnique
import Verif.Model.Solver
import Verif.Spec.Solver
import Verif.Proofs.Solver
import Verif.Props.Solver
import Verif.Proofs.DetSane
import Verif.Proofs.PartSane
import Verif.Proofs.DetChecked
import Verif.Props.DetDebug
import Verif.Model.Quantum
import Verif.Model.Select
import Verif.Model.Spread
import Verif.Spec.Quantum
import Verif.Proofs.Quantum
import Verif.Props.Quantum
import Verif.Props.Select
import Verif.Props.Spread
import Verif.Model.Cutoff
import Verif.Spec.Cutoff
import Verif.Model.UserPairs
import Verif.Props.Cutoff
import Verif.Props.UserPairs
import Verif.Model.Util
import Verif.Props.Util
import Verif.Props.Program
import Verif.Proofs.Ergodic
import Verif.Proofs.ErgodicProcess
import Verif.Proofs.AlmostShrink
import Verif.Proofs.SettleAlmost
import Verif.Props.Almost
import Verif.Spec.HalfFilled
import Verif.Proofs.HalfFilled
import Verif.Proofs.HalfFilledGreen
import Verif.Proofs.Always
import Verif.Props.HalfFilled
import Verif.Spec.Levels
import Verif.Proofs.LevelsDet
import Verif.Proofs.Levels
import Verif.Proofs.LevelsSum
import Verif.Proofs.LevelsExtra
import Verif.Props.Levels
import Verif.Spec.Hermitian
import Verif.Proofs.Hermitian
import Verif.Props.Hermitian
import Verif.Proofs.Wick
import Verif.Proofs.Inner
import Verif.Spec.Fock
import Verif.Proofs.Fock
import Verif.Proofs.FockWeight
import Verif.Proofs.FockExists
import Verif.Proofs.Dyson
import Verif.Proofs.Ordered
import Verif.Proofs.OrderedSum
import Verif.Proofs.FockSum
import Verif.Proofs.FockG0
import Verif.Props.Fock
import Verif.Proofs.Marked
import Verif.Proofs.MarkedSum
import Verif.Proofs.MarkedParam
import Verif.Spec.FockGreen
import Verif.Proofs.FockEvents
import Verif.Proofs.FockDensity
import Verif.Proofs.FockGreen
import Verif.Props.FockDensity
import Verif.Proofs.WickBroken
import Verif.Proofs.FockBroken
import Verif.Proofs.FockPick
import Verif.Proofs.FockSigma
import Verif.Proofs.ConfigPick
import Verif.Proofs.FockSigmaMeas
import Verif.Proofs.FockSigmaSum
import Verif.Proofs.FockSigmaLimit
import Verif.Spec.FockSigma
import Verif.Props.FockSigma
import Verif.Props.FProd
import Verif.Spec.FockMotion
import Verif.Proofs.FockMotion
import Verif.Proofs.LegendreLimit
import Verif.Proofs.BinLimit
import Verif.Props.FockMotion
import Verif.Proofs.FockPair
import Verif.Props.FockPair
import Verif.Proofs.SplineLimit
import Verif.Proofs.GridLimit
import Verif.Spec.FockGrid
import Verif.Proofs.GridGreen
import Verif.Proofs.GridFile
import Verif.Props.FockGrid
import Verif.Props.FockGridPair
import Verif.Spec.FockProgram
import Verif.Proofs.Atomic
import Verif.Props.FockProgram
import Verif.Proofs.FockOrder
import Verif.Spec.FockOrder
import Verif.Props.FockOrder
import Verif.Props.Missing
import Verif.Spec.Hubbard
import Verif.Props.Hubbard
import Verif.Spec.HubbardAtom
import Verif.Proofs.HubbardAtom
import Verif.Props.HubbardAtom
import Verif.Spec.Bipartite
import Verif.Proofs.Bipartite
import Verif.Props.Bipartite
import Verif.Proofs.SpinSwap
import Verif.Props.SpinSwap
import Verif.Proofs.EqualTime
import Verif.Props.EqualTime
import Verif.Props.Physical
import Verif.Props.EqualTimePair
import Verif.Props.Schedule
