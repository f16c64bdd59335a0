import Verif.Props.Probabilities
import Verif.Props.Delta
import Verif.Props.Demand
import Verif.Props.Supply
import Verif.Props.PostEstimation
import Verif.Props.Groups
import Verif.Props.Construction
import Verif.Props.Data
import Verif.Props.Iteration
import Verif.Props.Parallel
import Verif.Props.Sampling
import Verif.Props.Algebra
import Verif.Props.Statistics
import Verif.Props.Parameters
import Verif.Props.Progress
import Verif.Props.Evaluation
import Verif.Props.Panel
import Verif.Props.FiniteDifferences
import Verif.Props.DifferenceErrors
import Verif.Props.Optimizer
import Verif.Props.Reporting
import Verif.Props.TestStatistics
import Verif.Props.Sequences
import Verif.Props.Halton
import Verif.Props.Quadrature
import Verif.Props.QuadratureTables
import Verif.Props.ReplaceExogenous
import Verif.Props.Bootstrap
import Verif.Props.Micro
import Verif.Props.Moments
import Verif.Props.OptimalInstruments
import Verif.Props.Agents
import Verif.Props.Tangents
import Verif.Props.Implicit
import Verif.Props.SupplyTangents
import Verif.Props.PriceIteration
import Verif.Props.SecondChoices
import Verif.Props.SecondChoiceDeriv
import Verif.Props.ParametersAccepted
import Verif.Props.Scores
import Verif.Props.ScoresWitness
import Verif.Props.SimulateMicro
import Verif.Props.ReplaceEndogenous
import Verif.Props.SigmaSquared
import Verif.Props.ScoreChunks
import Verif.Props.Absorption
import Verif.Props.MomentsJacobian
import Verif.Props.PanelGradient
import Verif.Props.Units
import Verif.Props.Hessian
import Verif.Props.TwoStep
import Verif.Props.Sensitivity
import Verif.Props.Efficiency
import Verif.Props.Formulation
import Verif.Props.Validation
import Verif.Props.OptimalProblem
import Verif.Props.SimulationData
import Verif.Props.Tables
import Verif.Props.MatrixChecks
import Verif.Props.BootstrapDraws
import Verif.Props.PostArguments
import Verif.Props.Counterfactuals
import Verif.Props.Solvers
import Verif.Props.Configurations
import Verif.Props.AbsorbedIds
import Verif.Props.MarketInit
import Verif.Props.ImportanceResults
import Verif.Props.Relabeling
import Verif.Props.Currency
import Verif.Props.Basis
import Verif.Props.NonlinearUnits
import Verif.Props.Inversion
import Verif.Props.WholeGradient
import Verif.Props.WholeMicro
import Verif.Props.AbsorbedGradient
import Verif.Props.StructuralErrors
import Verif.Props.Tolerance
import Verif.Props.FloatExact
import Verif.Props.SolveArguments
import Verif.Props.MarketSolve
import Verif.Props.LogitPricing
import Verif.Props.Textbook
import Verif.Props.MonteCarlo
import Verif.Props.MonteCarloDerivatives
import Verif.Props.LargeSample
import Verif.Props.TestLimits
import Verif.Props.ScoreTest
import Verif.Props.FormulationArguments
import Verif.Props.NonlinearSample
import Verif.Props.NonlinearNormal
import Verif.Props.NonlinearTests
import Verif.Props.RandomSample
import Verif.Props.BootstrapSample
import Verif.Props.BootstrapOutputs
import Verif.Props.HaltonIntegration
import Verif.Props.LatinHypercube
import Verif.Props.OptimalVariance
import Verif.Props.ImportanceIntegration
import Verif.Props.MicroSample
import Verif.Props.AgentScores
import Verif.Props.Welfare
import Verif.Props.Slopes
import Verif.Props.Realizations
import Verif.Props.RealizationSupply
import Verif.Props.RandomUtilityNested
import Verif.Props.SecondOrder
import Verif.Props.NestedPricing
import Verif.Props.CostPassThrough
import Verif.Props.NestedRecovery
import Verif.Props.Shifters
import Verif.Props.MicroMoment
import Verif.Props.Exit
import Verif.Props.NestedExit
import Verif.Props.Quality
import Verif.Props.NestedMergers
import Verif.Props.SimulationSummary
