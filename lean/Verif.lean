import Verif.Props.Patefield
import Verif.Props.Binning
import Verif.Props.BinData
import Verif.Props.Stats
import Verif.Props.ZLogp
import Verif.Props.Phik
import Verif.Props.PhikMore
import Verif.Props.PhikWitness
import Verif.Props.Tasks
import Verif.Props.DataQuality
import Verif.Props.Matrix
import Verif.Props.MatrixPipeline
import Verif.Props.Reuse
import Verif.Props.ReuseAll
import Verif.Props.Rename
import Verif.Props.Records
import Verif.Props.Arrays
import Verif.Props.Global
import Verif.Props.Spark
import Verif.Props.Simulation
import Verif.Props.SimPatefield
import Verif.Props.SimChi2
import Verif.Props.Significance
import Verif.Props.SigTrue
import Verif.Props.Hybrid
import Verif.Props.HybridFit
import Verif.Props.HybridWitness
import Verif.Props.SigMatrix
import Verif.Props.SigArrays
import Verif.Props.Betainc
import Verif.Lemmas.BetaTail
import Verif.Model.Outliers
import Verif.Props.OutlierCI
import Verif.Props.OutlierTable
import Verif.Props.OutlierLog
import Verif.Props.Edges
import Verif.Props.OutlierFrame
import Verif.Props.OutlierCIFrame
import Verif.Props.OutlierPairs
import Verif.Props.KeepFrames
import Verif.Props.Plot
import Verif.Props.Report
import Verif.Props.ReportFigures
import Verif.Props.ReportNan
import Verif.Props.ReportAttribute
import Verif.Props.ReportReturns
import Verif.Props.ReportFolder
import Verif.Props.HistPlot
import Verif.Props.OutlierArrays
import Verif.Props.Gaussian
import Verif.Props.GaussianMono
import Verif.Props.PatefieldLaw
import Verif.Props.RecordOrder
import Verif.Props.Locality
import Verif.Props.Monotone
import Verif.Props.FalseAlarm
import Verif.Props.FalseAlarmTable
import Verif.Props.PhikShape
import Verif.Props.Repeated
import Verif.Props.GlobalBest
import Verif.Props.MeanChi2
import Verif.Spec.Multinomial
import Verif.Lemmas.Multinomial
import Verif.Lemmas.IdealBinom
import Verif.Props.MultinomialLaw
import Verif.Props.MultinomialIID
import Verif.Props.MCLaw
import Verif.Props.MCLimit
import Verif.Spec.PowerDiv
import Verif.Props.PowerDiv
import Verif.Props.StatBounds
import Verif.Model.Categorical
import Verif.Spec.Categorical
import Verif.Props.PhikCounts
import Verif.Props.Categorical
import Verif.Props.ChiNdof
import Verif.Props.CategoricalSig
import Verif.Props.GivenEdges
import Verif.Model.Named
import Verif.Props.ColumnNames
import Verif.Model.Infinite
import Verif.Props.Infinite
import Verif.Props.InfiniteFinite
import Verif.Props.InfiniteMore
import Verif.Spec.Merge
import Verif.Lemmas.Merge
import Verif.Props.Merge
import Verif.Props.MergeData
import Verif.Props.MergePhik
import Verif.Spec.Consistency
import Verif.Props.Consistency
import Verif.Props.ConsistencyData
import Verif.Props.ConsistencyWitness
import Verif.Props.Power
import Verif.Props.PowerWitness
import Verif.Lemmas.ChiSquare
import Verif.Lemmas.VectorCLT
import Verif.Lemmas.Quadratic
import Verif.Lemmas.NullLimit
import Verif.Lemmas.NullVectors
import Verif.Props.NullLevel
import Verif.Props.NullSig
import Verif.Props.NullMatrix
import Verif.Props.NullWitness
import Verif.Props.AutoBins
import Verif.Props.AutoWitness
import Verif.Props.SigReturns
import Verif.Model.FloatStats
import Verif.Spec.FloatStats
import Verif.Lemmas.FloatStats
import Verif.Props.FloatStats
import Verif.Props.FloatStatsWitness
import Verif.Model.Duplicates
import Verif.Props.Duplicates
import Verif.Model.Resources
import Verif.Props.Resources
import Verif.Model.FloatSim
import Verif.Spec.FloatSim
import Verif.Lemmas.FloatSim
import Verif.Props.FloatSim
import Verif.Spec.CramerV
import Verif.Lemmas.Gebelein
import Verif.Lemmas.CramerV
import Verif.Lemmas.BinnedVariance
import Verif.Props.CramerV
import Verif.Props.PhikStable
import Verif.Lemmas.NormalCdf
import Verif.Lemmas.BinaryGrid
import Verif.Lemmas.BinaryGridSum
import Verif.Lemmas.BinaryMono
import Verif.Props.BinaryTables
import Verif.Props.ConsistencyGauss
import Verif.Lemmas.BetaCheb
import Verif.Lemmas.GammaCLT
import Verif.Lemmas.OutlierLimit
import Verif.Props.OutlierConsistency
import Verif.Lemmas.NegBinCLT
import Verif.Lemmas.OutlierNormal
import Verif.Props.OutlierNull
import Verif.Spec.Quantiles
import Verif.Props.QuantileBins
import Verif.Props.QuantileWitness
import Verif.Props.OutlierAuto
import Verif.Lemmas.VectorLimit
import Verif.Props.OutlierJoint
import Verif.Props.SigMatrixMC
import Verif.Props.OutlierLocality
import Verif.Props.OutlierOrder
import Verif.Props.OutlierScale
import Verif.Props.ArrayExchange
import Verif.Props.Incomplete
import Verif.Props.FloatOutliers
import Verif.Props.FloatOutlierP
import Verif.Spec.OutlierMono
import Verif.Props.OutlierMono
import Verif.Props.SigCap
import Verif.Props.SigCapData
import Verif.Props.Detection
import Verif.Props.DetectionPhik
import Verif.Props.FewRecords
