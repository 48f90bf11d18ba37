import Verif.Props.Assembler
import Verif.Props.BlockFactor
import Verif.Props.CholeskyAccept
import Verif.Props.CApi
import Verif.Props.CliqueOrdering
import Verif.Props.PostOrder
import Verif.Props.RankUpdate
import Verif.Props.FactorSign
import Verif.Props.FactorSolve
import Verif.Props.ConstraintManager
import Verif.Props.CostInput
import Verif.Props.Divergence
import Verif.Props.DualVariables
import Verif.Props.EliminationOrdering
import Verif.Props.Equality
import Verif.Props.HermitianLmi
import Verif.Props.Hyper
import Verif.Props.IterStats
import Verif.Props.KktSolve
import Verif.Props.Layout
import Verif.Props.LineSearch
import Verif.Props.LinearConstraint
import Verif.Props.Lmi
import Verif.Props.MatrixExp
import Verif.Props.Options
import Verif.Props.Preprocess
import Verif.Props.PythonWrapper
import Verif.Props.QuadCone
import Verif.Props.Solve
import Verif.Props.SupernodalData
import Verif.Props.TriangularWorkspace
import Verif.Props.Updates
import Verif.Props.Matlab
import Verif.Props.MatlabConex
import Verif.Props.ColumnFactor
import Verif.Props.SolutionArray
import Verif.Model.NewtonStep
import Verif.Spec.Gap
import Verif.Lemmas.GapSpin
import Verif.Lemmas.Gap
import Verif.Lemmas.GapRun
import Verif.Lemmas.SolveFixed
import Verif.Props.Gap
import Verif.Model.KktError
import Verif.Spec.KktError
import Verif.Lemmas.KktError
import Verif.Props.KktError
import Verif.Spec.Infeasible
import Verif.Lemmas.Infeasible
import Verif.Props.Infeasible
import Verif.Model.Iteration
import Verif.Spec.Iteration
import Verif.Lemmas.Iteration
import Verif.Lemmas.IterationForm
import Verif.Lemmas.IterationTotal
import Verif.Props.Iteration
import Verif.Model.WholeSolve
import Verif.Spec.WholeSolve
import Verif.Lemmas.WholeSolve
import Verif.Lemmas.WholeRefines
import Verif.Lemmas.WholeExit
import Verif.Props.WholeSolve
import Verif.Model.WholeSearch
import Verif.Props.WholeSearch
import Verif.Props.WholeDivergence
import Verif.Model.WholeDual
import Verif.Spec.WholeDual
import Verif.Lemmas.WholeDual
import Verif.Lemmas.DualCertificate
import Verif.Props.DualCertificate
import Verif.Model.Session
import Verif.Spec.Session
import Verif.Lemmas.WarmSolve
import Verif.Lemmas.SessionRun
import Verif.Lemmas.WarmExample
import Verif.Props.Session
import Verif.Spec.Centering
import Verif.Lemmas.CenteringScalar
import Verif.Lemmas.Centering
import Verif.Props.Centering
import Verif.Lemmas.CentralPoint
import Verif.Lemmas.CentralExists
import Verif.Props.CentralPoint
import Verif.Props.ConeCentering
import Verif.Props.ConeExists
import Verif.Props.ConeSolve
import Verif.Props.MatrixCentering
import Verif.Props.MatrixPath
import Verif.Props.MatrixExists
import Verif.Props.MatrixSolve
import Verif.Props.MatrixStart
import Verif.Model.Geodesic
import Verif.Spec.Geodesic
import Verif.Lemmas.Geodesic
import Verif.Props.Geodesic
import Verif.Model.PythonErrors
import Verif.Spec.PythonErrors
import Verif.Lemmas.PythonErrors
import Verif.Props.PythonErrors
import Verif.Model.FeasibleObjective
import Verif.Spec.FeasibleObjective
import Verif.Lemmas.FeasibleObjective
import Verif.Props.FeasibleObjective
import Verif.Model.PlainLanczos
import Verif.Spec.PlainLanczos
import Verif.Lemmas.PlainLanczos
import Verif.Props.PlainLanczos
import Verif.Model.JacobiPoly
import Verif.Lemmas.JacobiPoly
import Verif.Props.JacobiPoly
import Verif.Model.MinPoly
import Verif.Spec.MinPoly
import Verif.Lemmas.MinPoly
import Verif.Props.MinPoly
import Verif.Model.GramSchmidt
import Verif.Spec.GramSchmidt
import Verif.Lemmas.GramSchmidt
import Verif.Props.GramSchmidt
import Verif.Model.ConeBase
import Verif.Spec.ConeBase
import Verif.Lemmas.ConeBase
import Verif.Lemmas.ConeBaseOps
import Verif.Lemmas.ConeBaseVanish
import Verif.Props.ConeBase
import Verif.Model.MatlabRun
import Verif.Spec.MatlabRun
import Verif.Lemmas.MatlabRun
import Verif.Lemmas.MatlabRunLib
import Verif.Lemmas.MatlabRunSound
import Verif.Props.MatlabRun
import Verif.Props.Equations
import Verif.Props.EquationsExists
import Verif.Props.Peirce
import Verif.Props.HyperTests
import Verif.Props.FactorNorm
import Verif.Props.ReadDual
import Verif.Props.MatlabLinear
import Verif.Props.KktFrom
import Verif.Props.MatlabDual
