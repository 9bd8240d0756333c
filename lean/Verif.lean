import Verif.Builder.CallProps
import Verif.Builder.Lifecycle
import Verif.Builder.LifecycleProps
import Verif.Builder.Linear
import Verif.Builder.LinearProps
import Verif.Builder.Model
import Verif.Builder.Predict
import Verif.Builder.PredictProps
import Verif.Builder.Prior
import Verif.Builder.PriorLaw
import Verif.Builder.PriorLawProps
import Verif.Builder.PriorProps
import Verif.Builder.Props
import Verif.Data.Model
import Verif.Data.Props
import Verif.Dist.Chi
import Verif.Dist.ChiProps
import Verif.Dist.Counts
import Verif.Dist.CountsProps
import Verif.Dist.GenPoisson
import Verif.Dist.GenPoissonBranch
import Verif.Dist.GenPoissonBranchProps
import Verif.Dist.GenPoissonProps
import Verif.Dist.Gev
import Verif.Dist.GevProps
import Verif.Dist.R2d2
import Verif.Dist.R2d2Props
import Verif.Dist.Vip
import Verif.Dist.VipModel
import Verif.Dist.VipModelProps
import Verif.Dist.VipProps
import Verif.Ets.Model
import Verif.Ets.Props
import Verif.Ets.Stationary
import Verif.Forecast.Model
import Verif.Forecast.Props
import Verif.Forecast.Scenario
import Verif.Forecast.ScenarioLemmas
import Verif.Forecast.ScenarioProps
import Verif.Forecast.ScenarioSpec
import Verif.Gp.KleProps
import Verif.Gp.Model
import Verif.Gp.ProjectedProps
import Verif.Hist.Model
import Verif.Hist.Props
import Verif.Hist.Quantile
import Verif.Kalman.Args
import Verif.Kalman.ArgsProps
import Verif.Kalman.Blocks
import Verif.Kalman.Conservative
import Verif.Kalman.ConservativeProps
import Verif.Kalman.ConservativeSpec
import Verif.Kalman.Detect
import Verif.Kalman.Forget
import Verif.Kalman.Gap
import Verif.Kalman.GaussianDensity
import Verif.Kalman.GaussianExists
import Verif.Kalman.GaussianLimit
import Verif.Kalman.GaussianLoglik
import Verif.Kalman.GaussianMissing
import Verif.Kalman.GaussianProps
import Verif.Kalman.GaussianSpec
import Verif.Kalman.GaussianTools
import Verif.Kalman.Lemmas
import Verif.Kalman.Missing
import Verif.Kalman.MissingLimit
import Verif.Kalman.MissingLimitProps
import Verif.Kalman.Model
import Verif.Kalman.MoreData
import Verif.Kalman.OptimalExists
import Verif.Kalman.OptimalLink
import Verif.Kalman.OptimalLoglik
import Verif.Kalman.OptimalProps
import Verif.Kalman.OptimalSpec
import Verif.Kalman.Orthogonal
import Verif.Kalman.Props
import Verif.Kalman.Relabel
import Verif.Kalman.Riccati
import Verif.Kalman.Sequential
import Verif.Kalman.SettleProps
import Verif.Kalman.SmootherOptimal
import Verif.Kalman.SmootherOptimalProps
import Verif.Kalman.Spec
import Verif.Kalman.Sqrt
import Verif.Kalman.SqrtGaussian
import Verif.Kalman.SqrtProps
import Verif.Kalman.Triangular
import Verif.Kalman.Undetermined
import Verif.Kalman.Units
import Verif.Kalman.Univariate
import Verif.Kalman.UnivariateConservative
import Verif.Kalman.UnivariateDensityLemmas
import Verif.Kalman.UnivariateDensityProps
import Verif.Kalman.UnivariateDensityRun
import Verif.Kalman.UnivariateLimit
import Verif.Kalman.UnivariateOptimal
import Verif.Kalman.UnivariateOptimalProps
import Verif.Kalman.UnivariateOrder
import Verif.Kalman.UnivariateProps
import Verif.Kalman.Visible
import Verif.Laplace.Cov
import Verif.Laplace.CovProps
import Verif.Laplace.Exact
import Verif.Laplace.ExactProps
import Verif.Laplace.Layout
import Verif.Laplace.LayoutProps
import Verif.Laplace.Pathfinder
import Verif.Laplace.PathfinderProps
import Verif.Laplace.SampleProps
import Verif.Marginal.Factors
import Verif.Marginal.FactorsProps
import Verif.Marginal.Graph
import Verif.Marginal.GraphLemmas
import Verif.Marginal.GraphMain
import Verif.Marginal.GraphProps
import Verif.Marginal.GraphSound
import Verif.Marginal.HmmProps
import Verif.Marginal.Logp
import Verif.Marginal.LogpLemmas
import Verif.Marginal.LogpProps
import Verif.Marginal.NestedProps
import Verif.Marginal.Posterior
import Verif.Marginal.PosteriorProps
import Verif.Marginal.RecoverProps
import Verif.Marginal.Registry
import Verif.Marginal.RegistryProps
import Verif.Marginal.State
import Verif.Marginal.StateProps
import Verif.Marginal.SupportAxes
import Verif.Marginal.SupportAxesProps
import Verif.MarkovChain.Batch
import Verif.MarkovChain.BatchProps
import Verif.MarkovChain.Model
import Verif.MarkovChain.Props
import Verif.Numerics.Cg
import Verif.Numerics.CgLemmas
import Verif.Numerics.CgLimits
import Verif.Numerics.CgProps
import Verif.Numerics.CgVector
import Verif.Numerics.PivChol
import Verif.Numerics.PivCholProps
import Verif.Params.Components
import Verif.Params.ComponentsProps
import Verif.Params.LagLabels
import Verif.Params.Meta
import Verif.Params.Props
import Verif.PostEstimation.Model
import Verif.PostEstimation.Props
import Verif.Printing.Lemmas
import Verif.Printing.Model
import Verif.Printing.Props
import Verif.Registry.BuildProps
import Verif.Registry.DummyProps
import Verif.Registry.Matrices
import Verif.Registry.MatricesProps
import Verif.Registry.Model
import Verif.Registry.Props
import Verif.Representation.Model
import Verif.Representation.Props
import Verif.Representation.ReadProps
import Verif.Sarima.Coeffs
import Verif.Sarima.Dynamics
import Verif.Sarima.Hilbert
import Verif.Sarima.Lemmas
import Verif.Sarima.Likelihood
import Verif.Sarima.MeaningProps
import Verif.Sarima.Model
import Verif.Sarima.Names
import Verif.Sarima.NamesProps
import Verif.Sarima.NamesSpec
import Verif.Sarima.ProcessProps
import Verif.Sarima.Props
import Verif.Sarima.Rows
import Verif.Sarima.Stability
import Verif.Sarima.Stationary
import Verif.Simulate.ConditionalProps
import Verif.Simulate.Dist
import Verif.Simulate.DistProps
import Verif.Simulate.Forecast
import Verif.Simulate.ForecastProps
import Verif.Simulate.Model
import Verif.Simulate.Moments
import Verif.Simulate.MomentsProps
import Verif.Simulate.Props
import Verif.Smc.Model
import Verif.Smc.Particles
import Verif.Smc.Props
import Verif.Smoother.Lemmas
import Verif.Smoother.Model
import Verif.Smoother.Props
import Verif.Spline.Model
import Verif.Spline.Props
import Verif.Stationary.Autocov
import Verif.Stationary.Lemmas
import Verif.Stationary.LongRun
import Verif.Stationary.Model
import Verif.Stationary.Nat
import Verif.Stationary.Props
import Verif.Stationary.Spectral
import Verif.Stationary.TwoSidedHilbert
import Verif.Stationary.TwoSidedProps
import Verif.Structural.Combine
import Verif.Structural.Components
import Verif.Structural.Conform
import Verif.Structural.ConformProps
import Verif.Structural.Extract
import Verif.Structural.ExtractProps
import Verif.Structural.Meta
import Verif.Structural.MetaProps
import Verif.Structural.Model
import Verif.Structural.Noise
import Verif.Structural.Order
import Verif.Structural.Settle
import Verif.Structural.SettleFreq
import Verif.Varmax.Likelihood
import Verif.Varmax.Model
import Verif.Varmax.Process
import Verif.Varmax.Props
import Verif.Varmax.Stability
