import Verif.Model.Angles
import Verif.Model.Arnoldi
import Verif.Model.ArnoldiHouse
import Verif.Model.ArnoldiProjected
import Verif.Model.Arnoldifyer
import Verif.Model.BoundPseudo
import Verif.Model.Bounds
import Verif.Model.Cg
import Verif.Model.Convenience
import Verif.Model.Counts
import Verif.Model.DType
import Verif.Model.DeflCg
import Verif.Model.DeflCounts
import Verif.Model.DeflRitz
import Verif.Model.Deflation
import Verif.Model.Driver
import Verif.Model.Evaluators
import Verif.Model.Factories
import Verif.Model.FlArith
import Verif.Model.FlArnoldi
import Verif.Model.FlCg
import Verif.Model.FlGmres
import Verif.Model.FlGmresHouse
import Verif.Model.FlHouse
import Verif.Model.FlMinres
import Verif.Model.FlProjection
import Verif.Model.FlQr
import Verif.Model.Gap
import Verif.Model.Givens
import Verif.Model.Gmres
import Verif.Model.Heap
import Verif.Model.HeapDefl
import Verif.Model.HeapRecycling
import Verif.Model.House
import Verif.Model.Inner
import Verif.Model.InnerDispatch
import Verif.Model.Intervals
import Verif.Model.LinearSystem
import Verif.Model.MinMax
import Verif.Model.Minres
import Verif.Model.Norms
import Verif.Model.Operators
import Verif.Model.PerturbedGmres
import Verif.Model.ProjOperator
import Verif.Model.Projection
import Verif.Model.Qr
import Verif.Model.Recycling
import Verif.Model.RecyclingArn
import Verif.Model.RecyclingRun
import Verif.Model.Repr
import Verif.Model.ResNorms
import Verif.Model.Restarted
import Verif.Model.Ritz
import Verif.Model.RootsPoly
import Verif.Model.Solver
import Verif.Model.TimedSystem
import Verif.Model.Timings
import Verif.Proofs.ArnProc
import Verif.Proofs.Arnoldi
import Verif.Proofs.ArnoldiHouse
import Verif.Proofs.Cg
import Verif.Proofs.CgRun
import Verif.Proofs.Chebyshev
import Verif.Proofs.Contracts
import Verif.Proofs.DeflRun
import Verif.Proofs.Deflation
import Verif.Proofs.Driver
import Verif.Proofs.Gmres
import Verif.Proofs.GmresRun
import Verif.Proofs.GmresTotal
import Verif.Proofs.Gram
import Verif.Proofs.HarmonicPoly
import Verif.Proofs.Heap
import Verif.Proofs.HeapArn
import Verif.Proofs.HeapDefl
import Verif.Proofs.HeapSolvers
import Verif.Proofs.Inner
import Verif.Proofs.Intervals
import Verif.Proofs.Krylov
import Verif.Proofs.Minres
import Verif.Proofs.MinresErr
import Verif.Proofs.PseudoRoutines
import Verif.Proofs.Reortho
import Verif.Proofs.Resolvent
import Verif.Proofs.Rotations
import Verif.Proofs.Sim
import Verif.Props.Angles
import Verif.Props.ApproxKrylov
import Verif.Props.Arnoldi
import Verif.Props.ArnoldiHouse
import Verif.Props.ArnoldiProjected
import Verif.Props.Arnoldifyer
import Verif.Props.BoundPseudo
import Verif.Props.Bounds
import Verif.Props.BoundsValid
import Verif.Props.Cg
import Verif.Props.CgErrors
import Verif.Props.CgMinres
import Verif.Props.Convenience
import Verif.Props.Counts
import Verif.Props.DType
import Verif.Props.DeflCg
import Verif.Props.DeflConv
import Verif.Props.DeflCounts
import Verif.Props.DeflMatrices
import Verif.Props.DeflRitz
import Verif.Props.DeflRitzEnd
import Verif.Props.DeflRitzVal
import Verif.Props.DeflSpace
import Verif.Props.DeflTerm
import Verif.Props.Deflation
import Verif.Props.Driver
import Verif.Props.EquivSys
import Verif.Props.Evaluators
import Verif.Props.Factories
import Verif.Props.FlArnHouse
import Verif.Props.FlArnoldi
import Verif.Props.FlCg
import Verif.Props.FlGmres
import Verif.Props.FlGmresCall
import Verif.Props.FlGmresDmgs
import Verif.Props.FlGmresHouse
import Verif.Props.FlHouse
import Verif.Props.FlLanczos
import Verif.Props.FlMinres
import Verif.Props.FlMinresCall
import Verif.Props.FlOrtho
import Verif.Props.FlProjection
import Verif.Props.FlQr
import Verif.Props.FlRestart
import Verif.Props.Gap
import Verif.Props.Givens
import Verif.Props.Gmres
import Verif.Props.Heap
import Verif.Props.HeapDefl
import Verif.Props.HeapRecycling
import Verif.Props.House
import Verif.Props.Intervals
import Verif.Props.IterCount
import Verif.Props.LinearSystem
import Verif.Props.MinMax
import Verif.Props.Minres
import Verif.Props.Norms
import Verif.Props.Operators
import Verif.Props.OwnQr
import Verif.Props.PerturbedGmres
import Verif.Props.ProjOperator
import Verif.Props.Projection
import Verif.Props.PseudoBound
import Verif.Props.PseudoLoop
import Verif.Props.PseudoPoly
import Verif.Props.Qr
import Verif.Props.Recycling
import Verif.Props.RecyclingArn
import Verif.Props.RecyclingOwnQr
import Verif.Props.RecyclingRun
import Verif.Props.Repr
import Verif.Props.ResNorms
import Verif.Props.RestartConv
import Verif.Props.Restarted
import Verif.Props.RestartedGmres
import Verif.Props.Ritz
import Verif.Props.RootsPoly
import Verif.Props.RoundOff
import Verif.Props.Singular
import Verif.Props.SolverCalls
import Verif.Props.SolverTotal
import Verif.Props.TimedSystem
import Verif.Props.Timings
import Verif.Props.Witness
