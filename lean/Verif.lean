import Verif.Prop.Psr
import Verif.Prop.CreateRemove
import Verif.Prop.States
import Verif.Prop.ApplyOp
import Verif.Prop.Cache
import Verif.Prop.Operators
import Verif.Prop.Hamiltonian
import Verif.Prop.Expand
import Verif.Prop.Mpi
import Verif.Prop.Index
import Verif.Prop.GetBasis
import Verif.Prop.Shell
import Verif.Prop.Observables
import Verif.Prop.Average
import Verif.Prop.Lanczos
import Verif.Prop.Output
import Verif.Prop.Eigen
import Verif.Prop.Transitions
import Verif.Prop.Restrictions
import Verif.Prop.Assemble
import Verif.Prop.CrystalField
import Verif.Prop.SpectraSign
import Verif.Prop.Green
import Verif.Prop.Spectra
import Verif.Prop.Rixs
import Verif.Prop.Simulate
import Verif.Lemmas.EigenLowest
import Verif.Model.Main
import Verif.Lemmas.MainSetup
import Verif.Spec.Main
import Verif.Lemmas.Between
import Verif.Lemmas.MainRuns
import Verif.Lemmas.MainMeaning
import Verif.Prop.Main
import Verif.Spec.Printed
import Verif.Spec.Arguments
import Verif.Spec.Average
import Verif.Spec.Cubic
import Verif.Lemmas.Printed
import Verif.Lemmas.PrintedStates
import Verif.Prop.Printed
import Verif.Lemmas.MainExample
import Verif.Prop.MainExample
import Verif.Model.Gaunt
import Verif.Lemmas.Gaunt
import Verif.Spec.Rotation
import Verif.Lemmas.Rotation
import Verif.Lemmas.Monopole
import Verif.Prop.Rotation
import Verif.Model.GreenDict
import Verif.Lemmas.GreenDict
import Verif.Prop.GreenDict
import Verif.Prop.Lehmann
import Verif.Prop.CommandLine
import Verif.Prop.PlotSpectra
import Verif.Prop.Variational
import Verif.Prop.Degenerate
import Verif.Prop.DegenerateExample
import Verif.Prop.Symmetry
import Verif.Prop.SymmetryExample
import Verif.Spec.OrbitalChange
import Verif.Spec.TimeReversal
import Verif.Lemmas.OrbitalChange
import Verif.Lemmas.Antiunitary
import Verif.Lemmas.TimeReversal
import Verif.Lemmas.TimeReversalShell
import Verif.Lemmas.TimeReversalCF
import Verif.Prop.TimeReversal
import Verif.Lemmas.Kramers
import Verif.Lemmas.Separate
import Verif.Lemmas.KramersExample
import Verif.Prop.Kramers
import Verif.Prop.KramersExample
import Verif.Model.Files
import Verif.Spec.Files
import Verif.Lemmas.Files
import Verif.Lemmas.MainFiles
import Verif.Prop.Files
import Verif.Spec.Levels
import Verif.Lemmas.Levels
import Verif.Prop.Levels
import Verif.Prop.LevelsExample
import Verif.Lemmas.Convergence
import Verif.Lemmas.KrylovError
import Verif.Lemmas.EnergyBound
import Verif.Spec.Convergence
import Verif.Spec.MainConvergence
import Verif.Spec.ExactSpectra
import Verif.Prop.Convergence
import Verif.Prop.RixsConvergence
import Verif.Prop.MainConvergence
import Verif.Lemmas.ExactSpectra
import Verif.Lemmas.Stability
import Verif.Spec.Stability
import Verif.Prop.Stability
import Verif.Spec.Cutoff
import Verif.Spec.MainCutoff
import Verif.Lemmas.Cutoff
import Verif.Lemmas.Weyl
import Verif.Lemmas.Bounded
import Verif.Lemmas.RixsCutoff
import Verif.Prop.Cutoff
import Verif.Model.AverageLocals
import Verif.Spec.Thermal
import Verif.Prop.Thermal
import Verif.Prop.MainThermal
import Verif.Spec.Perturb
import Verif.Prop.Perturb
import Verif.Prop.PerturbExample
import Verif.Spec.BasisCount
import Verif.Lemmas.BasisCount
import Verif.Prop.BasisCount
import Verif.Spec.Inexact
import Verif.Lemmas.Inexact
import Verif.Lemmas.InexactOrder
import Verif.Lemmas.OpLength
import Verif.Prop.Inexact
import Verif.Prop.InexactMain
import Verif.Prop.InexactExample
import Verif.Spec.BathChange
import Verif.Lemmas.BathChange
import Verif.Lemmas.BathResponse
import Verif.Lemmas.BathShell
import Verif.Prop.BathChange
import Verif.Prop.BathChangeExample
import Verif.Lemmas.BathRun
import Verif.Spec.Isotropy
import Verif.Lemmas.MatrixExp
import Verif.Lemmas.ShellTurn
import Verif.Lemmas.TurnExp
import Verif.Lemmas.Momentum
import Verif.Lemmas.Family
import Verif.Lemmas.Isotropy
import Verif.Lemmas.Rotate3
import Verif.Lemmas.IsotropyRun
import Verif.Lemmas.TurnRun
import Verif.Prop.Isotropy
import Verif.Lemmas.ClosedShellRun
import Verif.Prop.IsotropyExample
import Verif.Model.ExpandReport
import Verif.Prop.ExpandReport
import Verif.Model.Rounded
import Verif.Spec.Rounded
import Verif.Lemmas.RoundedChain
import Verif.Lemmas.Rounded
import Verif.Lemmas.RoundedFraction
import Verif.Lemmas.RoundedAverage
import Verif.Prop.Rounded
import Verif.Spec.Slope
import Verif.Lemmas.Slope
import Verif.Prop.Slope
import Verif.Prop.SlopeExample
import Verif.Spec.Moments
import Verif.Lemmas.Moments
import Verif.Prop.Moments
import Verif.Spec.SpectraChange
import Verif.Lemmas.SpectraChange
import Verif.Prop.SpectraChange
import Verif.Prop.SpectraChangeMain
import Verif.Prop.NixsMirror
import Verif.Prop.RixsChange
import Verif.Model.TextTable
import Verif.Spec.TextTable
import Verif.Lemmas.TextTable
import Verif.Prop.TextTable
import Verif.Model.ArgParse
import Verif.Spec.ArgParse
import Verif.Lemmas.ArgParse
import Verif.Prop.ArgParse
import Verif.Model.PrintedText
import Verif.Spec.PrintedText
import Verif.Lemmas.PrintedText
import Verif.Prop.PrintedText
import Verif.Model.RoundedStates
import Verif.Spec.RoundedStates
import Verif.Lemmas.RoundedStates
import Verif.Prop.RoundedStates
import Verif.Model.RoundedApply
import Verif.Spec.RoundedApply
import Verif.Lemmas.RoundedApply
import Verif.Prop.RoundedApply
import Verif.Spec.SumRules
import Verif.Lemmas.SumRules
import Verif.Prop.SumRules
import Verif.Spec.PhotoCount
import Verif.Prop.PhotoCount
import Verif.Prop.PhotoOrbitals
import Verif.Spec.AngularBounds
import Verif.Lemmas.Ladder
import Verif.Prop.AngularBounds
import Verif.Spec.Thresholds
import Verif.Lemmas.Thresholds
import Verif.Prop.Thresholds
import Verif.Prop.RixsMoments
import Verif.Spec.Heights
import Verif.Lemmas.Heights
import Verif.Prop.Heights
import Verif.Prop.RixsHeight
import Verif.Spec.ArgAccepted
import Verif.Prop.ArgAccepted
import Verif.Spec.FieldReversal
import Verif.Lemmas.FieldReversal
import Verif.Lemmas.ReversedSquares
import Verif.Prop.FieldReversal
import Verif.Prop.FieldReversalExample
import Verif.Spec.HalfTurn
import Verif.Lemmas.HalfTurn
import Verif.Lemmas.HalfTurnMeans
import Verif.Prop.HalfTurn
import Verif.Prop.HalfTurnExample
import Verif.Lemmas.HalfTurnY
import Verif.Lemmas.HalfTurnYMeans
import Verif.Prop.HalfTurnY
import Verif.Prop.HalfTurnYExample
