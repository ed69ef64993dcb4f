import Verif.Model.Basic
import Verif.Model.Combinatorics
import Verif.Model.Utils
import Verif.Model.UtilsText
import Verif.Model.Eigen
import Verif.Props.Combinatorics
import Verif.Props.Utils
import Verif.Props.UtilsText
import Verif.Model.Operators
import Verif.Model.Coefficients
import Verif.Props.Operators
import Verif.Props.Quadratic
import Verif.Props.Coefficients
import Verif.Props.Eigen
import Verif.Model.Rng
import Verif.Model.Random
import Verif.Props.Random
import Verif.Props.RandomStates
import Verif.Props.Paths
import Verif.Model.Distance
import Verif.Props.Entropy
import Verif.Props.TraceDistance
import Verif.Props.Stabilizer
import Verif.Props.Faf
import Verif.Model.Graph
import Verif.Spec.Graph
import Verif.Props.Graph
import Verif.Props.GraphCount
import Verif.Props.GraphMisc
import Verif.Spec.Wick
import Verif.Props.Wick
import Verif.Props.PureGauss
import Verif.Props.WickUnique
import Verif.Props.Dynamics
import Verif.Model.Plot
import Verif.Spec.Plot
import Verif.Props.Plot
import Verif.Spec.Reduced
import Verif.Props.Reduced
import Verif.Spec.Info
import Verif.Props.Info
import Verif.Props.SreProduct
import Verif.Props.SreBounds
import Verif.Proofs.FafMore
import Verif.Props.FafMore
import Verif.Model.Dtypes
import Verif.Proofs.Dtypes
import Verif.Props.Dtypes
import Verif.Proofs.Reach
import Verif.Props.Reach
import Verif.Props.Matchgate
import Verif.Proofs.SchurAlign
import Verif.Proofs.GibbsInj
import Verif.Props.Parent
import Verif.Model.Draw
import Verif.Spec.Draw
import Verif.Proofs.TreePlane
import Verif.Proofs.Draw
import Verif.Props.Draw
import Verif.Model.Machine
import Verif.Spec.EigenError
import Verif.Proofs.Machine
import Verif.Proofs.Rounding
import Verif.Proofs.CountError
import Verif.Props.Machine
import Verif.Props.Workflow
import Verif.Props.TightBinding
import Verif.Props.Shapes
import Verif.Spec.Ground
import Verif.Proofs.Ground
import Verif.Props.Ground
import Verif.Model.LibMessages
import Verif.Proofs.LibMessages
import Verif.Props.Messages
import Verif.Spec.Slater
import Verif.Proofs.Slater
import Verif.Props.Slater
import Verif.Proofs.MatchgateId
import Verif.Proofs.MatchgatePf
import Verif.Props.MatchgateId
import Verif.Model.Memory
import Verif.Spec.Memory
import Verif.Proofs.Memory
import Verif.Proofs.Memory2
import Verif.Proofs.Memory3
import Verif.Proofs.Memory4
import Verif.Props.Memory
import Verif.Proofs.GaussSpectrum
import Verif.Proofs.GaussSpectrum2
import Verif.Props.GaussSpectrum
import Verif.Proofs.Accepted
import Verif.Props.Accepted
import Verif.Model.AnyRank
import Verif.Props.AnyRank
import Verif.Spec.Spin
import Verif.Proofs.Spin
import Verif.Props.Spin
import Verif.Model.Nan
import Verif.Proofs.Nan
import Verif.Props.Nan
import Verif.Model.MachineSum
import Verif.Spec.MachineSum
import Verif.Proofs.MachineSum
import Verif.Props.MachineSum
import Verif.Model.Session
import Verif.Spec.Session
import Verif.Proofs.Session
import Verif.Props.Session
import Verif.Model.DocScript
import Verif.Proofs.DocScript
import Verif.Props.DocScript
import Verif.Spec.Law
import Verif.Proofs.Law
import Verif.Proofs.Haar
import Verif.Proofs.IdealSource
import Verif.Props.Law
import Verif.Props.LawBits
import Verif.Spec.FFLaw
import Verif.Proofs.HaarNull
import Verif.Proofs.FFLaw
import Verif.Props.FFLaw
import Verif.Proofs.MixLaw
import Verif.Props.MixLaw
import Verif.Spec.MeanLaw
import Verif.Proofs.MeanLaw
import Verif.Props.MeanLaw
import Verif.Model.Ieee
import Verif.Spec.Ieee
import Verif.Proofs.Ieee
import Verif.Proofs.IeeeInt
import Verif.Props.Ieee
import Verif.Proofs.IeeeCx
import Verif.Props.IeeeCx
import Verif.Proofs.IeeeOp
import Verif.Props.IeeeOp
import Verif.Props.IeeeCast
import Verif.Model.MachineComplex
import Verif.Proofs.RoundingComplex
import Verif.Props.RoundingComplex
import Verif.Spec.Mix
import Verif.Proofs.Mix
import Verif.Proofs.MixFaf
import Verif.Props.Mix
import Verif.Proofs.Metric
import Verif.Props.Metric
import Verif.Proofs.Continuity
import Verif.Props.Continuity
import Verif.Proofs.ContinuitySre
import Verif.Props.ContinuitySre
import Verif.Model.MachineOps
import Verif.Spec.MachineOps
import Verif.Proofs.MachineOps
import Verif.Proofs.MachineBuild
import Verif.Props.MachineOps
import Verif.Model.MachineCorr
import Verif.Proofs.MachineCorr
import Verif.Props.MachineCorr
import Verif.Proofs.Weyl
import Verif.Props.Weyl
import Verif.Spec.Clifford
import Verif.Proofs.Clifford
import Verif.Proofs.StabCount
import Verif.Proofs.Tableau
import Verif.Props.Clifford
import Verif.Proofs.Lipschitz
import Verif.Props.Lipschitz
import Verif.Proofs.Klein
import Verif.Proofs.Subadditive
import Verif.Props.MaxEntropy
import Verif.Proofs.Schmidt
import Verif.Props.Entangle
import Verif.Props.Response
import Verif.Props.Triangle
import Verif.Props.Sizes
import Verif.Props.Fannes
import Verif.Proofs.ThermalNear
import Verif.Props.Stability
import Verif.Props.SreTotal
import Verif.Props.RandomFlags
import Verif.Props.CleanStr
import Verif.Spec.Geodesic
import Verif.Props.Geodesic
import Verif.Props.LinearArc
import Verif.Model.PathShapes
import Verif.Props.PathShapes
import Verif.Props.Expansion
import Verif.Props.Domination
import Verif.Proofs.Overlap
import Verif.Proofs.Overlap2
import Verif.Props.Overlap
import Verif.Proofs.Circuit
import Verif.Props.Circuit
import Verif.Proofs.Born
import Verif.Props.Born
