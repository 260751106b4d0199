import Verif.Props.Vec
import Verif.Props.Dense
import Verif.Props.Frame
import Verif.Props.Struct
import Verif.Props.Sparse
import Verif.Props.Tdma
import Verif.Props.Cholesky
import Verif.Props.Ilu
import Verif.Props.Cgs
import Verif.Props.Gmres
import Verif.Props.Counter
import Verif.Props.Lapack
import Verif.Props.Blas1
import Verif.Props.Eval
import Verif.Props.Float
import Verif.Props.FloatSolve
import Verif.Props.FloatInt
import Verif.Props.Ieee
import Verif.Props.IeeeBound
import Verif.Props.IeeeSolve
import Verif.Props.IeeeGmres
import Verif.Props.IeeeInv
import Verif.Props.IeeeBack
import Verif.Props.Store
import Verif.Props.StoreCsr
import Verif.Props.DenseStore
import Verif.Props.Shapes
import Verif.Props.SizeT
import Verif.Props.Threads
import Verif.Props.GmresShapes
import Verif.Proofs.ProdShapes
import Verif.Props.ProdShapes
import Verif.Model.Views
import Verif.Proofs.Views
import Verif.Props.Views
import Verif.Props.Complex
import Verif.Spec.Cx
import Verif.Proofs.Cx
import Verif.Props.Cx
import Verif.Spec.CgsEval
import Verif.Proofs.CgsRaw
import Verif.Proofs.FloatCgs
import Verif.Props.FloatCgs
import Verif.Model.SolverStore
import Verif.Spec.SolverStore
import Verif.Proofs.SolverStore
import Verif.Props.SolverStore
import Verif.Model.Failure
import Verif.Spec.Failure
import Verif.Proofs.Failure
import Verif.Props.Failure
import Verif.Proofs.IeeeTdmaOk
import Verif.Spec.IeeeTdmaOk
import Verif.Props.IeeeTdmaOk
import Verif.Proofs.CholPrefix
import Verif.Proofs.CholBack
import Verif.Proofs.IeeeCholOk
import Verif.Proofs.IeeeCholSolve
import Verif.Spec.IeeeCholOk
import Verif.Props.IeeeCholOk
import Verif.Spec.IluDom
import Verif.Proofs.IluDom
import Verif.Props.IluDom
import Verif.Spec.IeeeIluOk
import Verif.Proofs.IeeeIluOk
import Verif.Props.IeeeIluOk
import Verif.Spec.Noisy
import Verif.Proofs.Noisy
import Verif.Proofs.NoisySolve
import Verif.Proofs.NoisyTdma
import Verif.Proofs.NoisyChol
import Verif.Props.Noisy
import Verif.Spec.Scaling
import Verif.Proofs.Scaling
import Verif.Proofs.ScalingRec
import Verif.Proofs.SameOut
import Verif.Props.Scaling
import Verif.Props.ScalingUse
import Verif.Spec.Order
import Verif.Proofs.Order
import Verif.Proofs.OrderRec
import Verif.Props.Order
import Verif.Props.OrderIeee
import Verif.Spec.IntElem
import Verif.Proofs.IntElem
import Verif.Props.IntElem
import Verif.Spec.Forward
import Verif.Proofs.Forward
import Verif.Props.Forward
import Verif.Spec.Refine
import Verif.Proofs.Refine
import Verif.Props.Refine
import Verif.Spec.LogRel
import Verif.Proofs.LogRel
import Verif.Props.LogRel
import Verif.Props.LogRelUse
import Verif.Spec.Twin
import Verif.Proofs.Twin
import Verif.Props.Twin
import Verif.Spec.SoftFloat
import Verif.Proofs.SoftFloat
import Verif.Props.SoftFloat
import Verif.Suite.Common
import Verif.Suite.Vec
import Verif.Suite.Mat
import Verif.Suite.Solver
import Verif.Suite.Store
import Verif.Props.Recip
import Verif.Proofs.GmresSteps
import Verif.Props.GmresSteps
import Verif.Props.ScalingGmres
import Verif.Model.SolverRef
import Verif.Props.SolverRef
import Verif.Props.Values
import Verif.Model.Device
import Verif.Props.Device
import Verif.Model.IluStruct
import Verif.Proofs.IluStruct
import Verif.Props.IluStruct
import Verif.Model.Error
import Verif.Props.Error
import Verif.Model.Look
import Verif.Model.Clients
import Verif.Spec.Clients
import Verif.Proofs.Look
import Verif.Proofs.Clients
import Verif.Props.Clients
import Verif.Spec.Stationary
import Verif.Proofs.Stationary
import Verif.Props.Stationary
import Verif.Spec.StationaryRound
import Verif.Proofs.StationaryRound
import Verif.Props.StationaryRound
import Verif.Proofs.GmresDom
import Verif.Props.GmresDom
import Verif.Props.RoundTrip
import Verif.Spec.StationaryStop
import Verif.Props.StationaryStop
import Verif.Props.SizedStore
import Verif.Props.Renumber
import Verif.Props.Leading
import Verif.Props.Inertia
import Verif.Props.Inverse
import Verif.Props.Certify
import Verif.Props.Minimise
import Verif.Props.Cramer
import Verif.Props.Schur
import Verif.Props.Evolution
import Verif.Props.EvolutionFloat
import Verif.Props.Eigen
import Verif.Props.Newton
import Verif.Props.NewtonFull
import Verif.Props.Cg
import Verif.Props.Constrained
import Verif.Props.Cyclic
