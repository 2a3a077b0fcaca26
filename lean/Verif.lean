import Verif.Sorting.Theorems
import Verif.WalkForward.Theorems
import Verif.Combinatorial.Theorems
import Verif.Validation.Theorems
import Verif.Validation.BacktestModel
import Verif.Validation.BacktestTheorems
import Verif.Validation.PathsTheorems
import Verif.Equations.Theorems
import Verif.Equations.NamesTheorems
import Verif.Measures.Theorems
import Verif.Measures.ScaleTheorems
import Verif.Measures.MixTheorems
import Verif.Measures.DominanceTheorems
import Verif.Measures.ConcatTheorems
import Verif.Hierarchical.HercTheorems
import Verif.Selection.Theorems
import Verif.Portfolio.Theorems
import Verif.Convex.Theorems
import Verif.Convex.EquilibriumTheorems
import Verif.Preprocessing.Theorems
import Verif.Prior.BlackLittermanTheorems
import Verif.Prior.FactorTheorems
import Verif.Prior.EmpiricalTheorems
import Verif.Moments.CorrTheorems
import Verif.Moments.GerberTheorems
import Verif.Moments.DistanceTheorems
import Verif.Moments.EquivTheorems
import Verif.Moments.ShrunkTheorems
import Verif.Naive.Theorems
import Verif.Copula.RotationTheorems
import Verif.Copula.ClaytonTheorems
import Verif.Copula.GumbelTheorems
import Verif.Copula.JoeTheorems
import Verif.Copula.EllipticalExamples
import Verif.Copula.PseudoTheorems
import Verif.Vine.Theorems
import Verif.Combinatorial.FoldsTheorems
import Verif.Combinatorial.TablesModel
import Verif.Combinatorial.TablesTheorems
import Verif.Nested.Theorems
import Verif.Nested.Params
import Verif.Nested.AddressTheorems
import Verif.Nested.LimitTheorems
import Verif.Cache.Theorems
import Verif.Vine.Central
import Verif.Vine.CentralLemmas
import Verif.Vine.CentralTheorems
import Verif.Vine.ConditioningModel
import Verif.Vine.ConditioningTheorems
import Verif.Convex.Additive
import Verif.Convex.RiskBudgetingModel
import Verif.Convex.RiskBudgetingTheorems
import Verif.Convex.RiskBudgetingFindings
import Verif.Convex.BudgetProportions
import Verif.Convex.Diversification
import Verif.Convex.RobustModel
import Verif.Convex.RobustSpec
import Verif.Convex.Alternative
import Verif.Convex.RobustTheorems
import Verif.Uncertainty.Spec
import Verif.Uncertainty.Ellipsoid
import Verif.Uncertainty.MuTheorems
import Verif.Uncertainty.Model
import Verif.Uncertainty.CovSpec
import Verif.Uncertainty.Cone
import Verif.Uncertainty.CovTheorems
import Verif.Uncertainty.ShapeSpec
import Verif.Uncertainty.ShapeTheorems
import Verif.Convex.ObjectiveSpec
import Verif.Convex.ObjectiveTheorems
import Verif.Convex.Convexity
import Verif.Convex.FrontierModel
import Verif.Convex.FrontierTheorems
import Verif.Convex.FrontierExamples
import Verif.Convex.SolveModel
import Verif.Convex.SolveTheorems
import Verif.Convex.CacheModel
import Verif.Convex.CacheTheorems
import Verif.Inputs.Theorems
import Verif.Inputs.GroupTheorems
import Verif.Moments.ImpliedModel
import Verif.Moments.ImpliedTheorems
import Verif.Moments.SpectralModel
import Verif.Moments.SpectralTheorems
import Verif.Predict.Model
import Verif.Predict.Theorems
import Verif.Predict.SelectedTheorems
import Verif.ModelSelection.Model
import Verif.ModelSelection.Theorems
import Verif.ModelSelection.CriterionTheorems
import Verif.Moments.WindowModel
import Verif.Moments.WindowTheorems
import Verif.Cluster.Model
import Verif.Cluster.Theorems
import Verif.Cluster.DendrogramModel
import Verif.Cluster.DendrogramTheorems
import Verif.Distance.MutualModel
import Verif.Distance.Entropy
import Verif.Distance.MutualTheorems
import Verif.Distance.CorrModel
import Verif.Display.Model
import Verif.Display.Theorems
import Verif.Display.MeasuresDfTheorems
import Verif.Distance.CorrTheorems
import Verif.Distance.SampleModel
import Verif.Distance.SampleLemmas
import Verif.Distance.SampleTheorems
import Verif.Portfolio.RollingModel
import Verif.Portfolio.RollingTheorems
import Verif.Portfolio.CompositionModel
import Verif.Portfolio.CompositionTheorems
import Verif.Portfolio.ParamsModel
import Verif.Portfolio.ParamsTheorems
import Verif.Portfolio.PickleTheorems
import Verif.Portfolio.MultiArithTheorems
import Verif.Portfolio.MultiMeasuresTheorems
import Verif.Portfolio.MomentsModel
import Verif.Portfolio.MomentsTheorems
import Verif.Portfolio.PlotModel
import Verif.Portfolio.PlotTheorems
import Verif.Portfolio.CompareModel
import Verif.Portfolio.CompareTheorems
import Verif.Portfolio.SpreadTheorems
import Verif.Copula.TailModel
import Verif.Copula.TailTheorems
import Verif.Copula.TailElliptical
import Verif.Copula.ExistsCopula
import Verif.Copula.KendallSpec
import Verif.Copula.KendallLemmas
import Verif.Copula.KendallClayton
import Verif.Copula.Digamma
import Verif.Copula.KendallJoe
import Verif.Copula.KendallRotation
import Verif.Copula.FitModel
import Verif.Copula.FitSpec
import Verif.Copula.SampleTau
import Verif.Copula.FitTheorems
import Verif.Routing.Model
import Verif.Routing.Spec
import Verif.Routing.Lemmas
import Verif.Routing.Fit
import Verif.Routing.FitOk
import Verif.Routing.Theorems
import Verif.Routing.Examples
import Verif.Convex.CustomModel
import Verif.Convex.CustomTheorems
import Verif.Convex.RelabelTheorems
import Verif.Convex.UniqueTheorems
import Verif.Convex.LooserTheorems
import Verif.Convex.UnitsTheorems
import Verif.Convex.ScaleTheorems
import Verif.Convex.ShuffleTheorems
import Verif.Convex.InvarianceExamples
import Verif.Uncertainty.RatioModel
import Verif.Uncertainty.RatioTheorems
import Verif.Prior.SyntheticModel
import Verif.Prior.SyntheticTheorems
import Verif.Prior.LoadingModel
import Verif.Prior.LoadingTheorems
import Verif.FitParams.Model
import Verif.FitParams.Theorems
import Verif.Vine.VisitModel
import Verif.Vine.VisitTheorems
import Verif.Vine.DependenceModel
import Verif.Vine.DependenceTheorems
import Verif.Moments.ImpliedRefit
import Verif.Copula.Sector
import Verif.Copula.KendallElliptical
import Verif.Copula.FitElliptical
import Verif.Copula.MleModel
import Verif.Copula.MleTheorems
import Verif.Hierarchical.InvarianceTheorems
import Verif.Convex.ClosedForm
import Verif.Hierarchical.UncorrelatedTheorems
import Verif.Hierarchical.LimitTheorems
import Verif.Convex.TradeOffTheorems
import Verif.Convex.FrontierConvex
import Verif.Convex.MeetTheorems
import Verif.Convex.ShiftRatio
import Verif.Convex.RelabelRobust
import Verif.Convex.RobustUnits
import Verif.Convex.StabilityRobust
import Verif.Convex.BallLimits
import Verif.Convex.LeverTheorems
import Verif.Validation.ParamsTheorems
import Verif.Validation.PeriodParamsTheorems
import Verif.Convex.TradeOffExamples
import Verif.Convex.RobustnessTheorems
import Verif.Convex.RobustnessExamples
import Verif.Convex.UniverseTheorems
import Verif.Convex.UniverseExamples
import Verif.Convex.CopiesTheorems
import Verif.Convex.ShiftTheorems
import Verif.Convex.ShiftExamples
import Verif.Clone.Model
import Verif.Clone.Theorems
import Verif.Clone.Examples
import Verif.Inputs.NamesModel
import Verif.Inputs.NamesTheorems
import Verif.Measures.StabilityTheorems
import Verif.Convex.StabilityTheorems
import Verif.Convex.StabilityExamples
import Verif.Prior.BlackLittermanViews
import Verif.Convex.RebalanceTheorems
import Verif.Convex.RebalanceExamples
import Verif.Convex.BudgetUnique
import Verif.Convex.LooserRobust
import Verif.Convex.BudgetMoves
import Verif.Convex.BudgetRisk
import Verif.Portfolio.IndexTheorems
import Verif.Convex.BudgetFactor
import Verif.Preprocessing.SplitTheorems
