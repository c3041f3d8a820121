import Verif.Lemmas.Adjacency
import Verif.Lemmas.Cliques
import Verif.Lemmas.Concrete
import Verif.Lemmas.ConcreteEig
import Verif.Lemmas.Construction
import Verif.Lemmas.Dicts
import Verif.Lemmas.Double
import Verif.Lemmas.EigProj
import Verif.Lemmas.EigSelect
import Verif.Lemmas.FilterHeap
import Verif.Lemmas.FloatSum
import Verif.Lemmas.GpLib
import Verif.Lemmas.Incidence
import Verif.Lemmas.LeastSquares
import Verif.Lemmas.NumLibExists
import Verif.Lemmas.Perturb
import Verif.Lemmas.PlotLib
import Verif.Lemmas.Poincare
import Verif.Lemmas.PolyFit
import Verif.Lemmas.PyList
import Verif.Lemmas.Readers
import Verif.Lemmas.Regression
import Verif.Lemmas.RoundFloor
import Verif.Lemmas.Sorting
import Verif.Lemmas.Spectral
import Verif.Lemmas.TrendLib
import Verif.Model.ArrayApi
import Verif.Model.BaseFilter
import Verif.Model.Chebyshev
import Verif.Model.DataLoaders
import Verif.Model.EdgeFlowDenoising
import Verif.Model.Eigendecomposition
import Verif.Model.FloatArith
import Verif.Model.FloatError
import Verif.Model.FloatFilter
import Verif.Model.FloatHodge
import Verif.Model.GaussianProcess
import Verif.Model.GpHeap
import Verif.Model.GpPredict
import Verif.Model.GpTraining
import Verif.Model.HodgeDecomposition
import Verif.Model.InexactEig
import Verif.Model.InexactInv
import Verif.Model.Lstsq
import Verif.Model.LstsqFilters
import Verif.Model.NetworkReader
import Verif.Model.NumLib
import Verif.Model.Objects
import Verif.Model.Plot
import Verif.Model.PolyFilter
import Verif.Model.Progress
import Verif.Model.Py
import Verif.Model.RandomSession
import Verif.Model.SCBuilder
import Verif.Model.SimplicialComplex
import Verif.Model.TrendFilter
import Verif.Props.Accuracy
import Verif.Props.ArrayApi
import Verif.Props.BaseFilter
import Verif.Props.BestFilter
import Verif.Props.Builder
import Verif.Props.Chains
import Verif.Props.Chebyshev
import Verif.Props.ChebyshevPlots
import Verif.Props.CliqueCost
import Verif.Props.CompleteNetwork
import Verif.Props.Connectivity
import Verif.Props.DatasetContents
import Verif.Props.Datasets
import Verif.Props.DenoiseRate
import Verif.Props.EdgeFlow
import Verif.Props.EdgeFlowLimit
import Verif.Props.EdgeLaplacian
import Verif.Props.Eigen
import Verif.Props.Equivariance
import Verif.Props.EveryTolerance
import Verif.Props.ExactFilters
import Verif.Props.Faces
import Verif.Props.Failures
import Verif.Props.FilterAccuracy
import Verif.Props.FilterCalls
import Verif.Props.FilterComponents
import Verif.Props.FilterEquivariance
import Verif.Props.FilterError
import Verif.Props.FilterHistory
import Verif.Props.FilterRcond
import Verif.Props.FloatArith
import Verif.Props.FloatCheck
import Verif.Props.FloatError
import Verif.Props.FloatFilter
import Verif.Props.FloatHodge
import Verif.Props.FlowTables
import Verif.Props.FrequencyBounds
import Verif.Props.GaussianProcess
import Verif.Props.GpBasis
import Verif.Props.GpCalibration
import Verif.Props.GpClosedForms
import Verif.Props.GpComponents
import Verif.Props.GpDenoise
import Verif.Props.GpDensity
import Verif.Props.GpEquivariance
import Verif.Props.GpHeap
import Verif.Props.GpNoise
import Verif.Props.GpPredict
import Verif.Props.GpTrainer
import Verif.Props.GpTraining
import Verif.Props.GridAccuracy
import Verif.Props.GridLeak
import Verif.Props.Hodge
import Verif.Props.IdealFilter
import Verif.Props.Incidence
import Verif.Props.IncidenceFiles
import Verif.Props.InexactEig
import Verif.Props.InexactInv
import Verif.Props.Interpolation
import Verif.Props.InterpolationWeight
import Verif.Props.Kirchhoff
import Verif.Props.L1Small
import Verif.Props.L1Weight
import Verif.Props.L1WeightCurl
import Verif.Props.LibIndependence
import Verif.Props.Loaders
import Verif.Props.Locality
import Verif.Props.LongFilters
import Verif.Props.LongGrid
import Verif.Props.Masks
import Verif.Props.MoreData
import Verif.Props.NestedSplits
import Verif.Props.Networks
import Verif.Props.NoiseAverage
import Verif.Props.NoiseFilters
import Verif.Props.NoiseGain
import Verif.Props.NoiseHodge
import Verif.Props.NoiseTrend
import Verif.Props.Objects
import Verif.Props.ObjectsCreate
import Verif.Props.Operators
import Verif.Props.Parts
import Verif.Props.Pipeline
import Verif.Props.Plot
import Verif.Props.PlotColors
import Verif.Props.PlotNetwork
import Verif.Props.PlotPanels
import Verif.Props.PolyFilters
import Verif.Props.PowerAccuracy
import Verif.Props.Progress
import Verif.Props.RandomSession
import Verif.Props.Rcond
import Verif.Props.Readers
import Verif.Props.ResponseError
import Verif.Props.RingFilters
import Verif.Props.Rings
import Verif.Props.SharpAccuracy
import Verif.Props.Sizes
import Verif.Props.SmallFilters
import Verif.Props.Summary
import Verif.Props.Topology
import Verif.Props.TrendAccuracy
import Verif.Props.TrendEquivariance
import Verif.Props.TrendFilter
import Verif.Props.TrendRate
import Verif.Props.TrendStats
import Verif.Props.TrendWeights
import Verif.Props.TypeOneEvery
import Verif.Props.TypeOneShares
import Verif.Props.Units
import Verif.Props.UnitsTrend
import Verif.Spec.Complex
import Verif.Spec.Datasets
import Verif.Spec.Filters
import Verif.Spec.Inexact
import Verif.Spec.Samples
import Verif.Spec.Spectrum
import Verif.Spec.Tables
import Verif.Spec.WellFormed
import Verif.Validation.Paper
import Verif.Validation.PaperFlows
