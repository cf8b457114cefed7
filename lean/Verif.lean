import Verif.Props.Stochastic
import Verif.Props.LimitState
import Verif.Props.StdNormal
import Verif.Props.Marginal
import Verif.Props.Wrappers
import Verif.Props.CdfSens
import Verif.Props.Gev
import Verif.Props.Cholesky
import Verif.Props.Transformation
import Verif.Props.Correlation
import Verif.Props.Quadrature
import Verif.Props.Integration
import Verif.Props.Form
import Verif.Props.FormDirection
import Verif.Props.FormTransform
import Verif.Props.FormCalls
import Verif.Props.FormLinear
import Verif.Props.MonteCarlo
import Verif.Props.MonteCarloRerun
import Verif.Props.Subset
import Verif.Props.Metropolis
import Verif.Props.LineSampling
import Verif.Props.SormFormula
import Verif.Props.SormRotation
import Verif.Props.SormHessian
import Verif.Props.SormMixed
import Verif.Props.SormCurvature
import Verif.Props.SormShift
import Verif.Props.SormPointfit
import Verif.Props.SormExample
import Verif.Props.FormArmijo
import Verif.Props.SensitivityFD
import Verif.Props.Sensitivity
import Verif.Props.SensitivityPaths
import Verif.Props.SensitivityNormal
import Verif.Props.LoadCase
import Verif.Props.CalibrationLoop
import Verif.Props.GenericCalib
import Verif.Props.CalibrationMatrix
import Verif.Props.CalibrationRun
import Verif.Props.Noninterference
import Verif.Props.LineSamplingRun
import Verif.Props.Importance
import Verif.Props.Mutable
import Verif.Props.MutableWrap
import Verif.Props.Sample
import Verif.Props.NatafLaw
import Verif.Props.MonteCarloError
import Verif.Props.FormObject
import Verif.Props.SormObject
import Verif.Props.LineObject
import Verif.Props.LineReversed
import Verif.Props.MonteCarloObject
import Verif.Props.MonteCarloReport
import Verif.Props.MonteCarloStale
import Verif.Props.MonteCarloExample
import Verif.Props.SubsetObject
import Verif.Props.SubsetExample
import Verif.Props.Options
import Verif.Props.OptionsReads
import Verif.Props.OptionsMeaning
import Verif.Props.Copies
import Verif.Props.CdfDifferences
import Verif.Props.CdfDifferencesTotal
import Verif.Props.CdfDifferencesMore
import Verif.Props.CopiesExample
import Verif.Props.OneLaw
import Verif.Props.DistributionObject
import Verif.Props.DistributionReport
import Verif.Props.DistributionExample
import Verif.Props.ScalingForm
import Verif.Props.ScalingStep
import Verif.Props.ScalingSim
import Verif.Props.ScalingLine
import Verif.Props.ScalingSubset
import Verif.Props.ScalingSorm
import Verif.Props.ScalingExample
import Verif.Props.UnitsForm
import Verif.Props.UnitsFamilies
import Verif.Props.UnitsFamily
import Verif.Props.UnitsRuns
import Verif.Props.UnitsSim
import Verif.Props.UnitsModel
import Verif.Props.UnitsSession
import Verif.Props.UnitsExample
import Verif.Props.OrderForm
import Verif.Props.OrderModel
import Verif.Props.OrderExample
import Verif.Props.ExtraForm
import Verif.Props.ExtraModel
import Verif.Props.ExtraExample
import Verif.Props.SensNormal
import Verif.Props.CompositeLaw
import Verif.Props.CompositeMonteCarlo
import Verif.Props.ProperCdf
import Verif.Props.SensCorr
import Verif.Lemmas.ModelMap
import Verif.Model.SensitivityObject
import Verif.Props.SensFDAffine
import Verif.Spec.SensTable
import Verif.Props.SensTable
import Verif.Props.SensObjectAffine
import Verif.Props.SensObjectExample
import Verif.Model.Aliasing
import Verif.Spec.Aliasing
import Verif.Props.Aliasing
import Verif.Spec.FormBound
import Verif.Props.FormBound
import Verif.Props.FormBoundExample
import Verif.Lemmas.StrongLaw
import Verif.Props.Convergence
import Verif.Props.ConvergenceLine
import Verif.Props.ConvergenceExample
import Verif.Lemmas.Mills
import Verif.Lemmas.Paraboloid
import Verif.Props.SormParaboloid
import Verif.Props.SormParaboloidExample
import Verif.Props.FormDistance
import Verif.Props.FormDistanceExample
import Verif.Spec.GenericModel
import Verif.Props.GenericSetters
import Verif.Props.Labels
import Verif.Props.LabelsExample
import Verif.Props.Systems
import Verif.Spec.EndToEnd
import Verif.Props.EndToEnd
import Verif.Lemmas.Hlrf
import Verif.Props.FormLocal
import Verif.Props.FormGlobal
import Verif.Props.FormCycle
import Verif.Props.FormConvergenceExample
import Verif.Lemmas.MarginNewton
import Verif.Spec.Margin
import Verif.Props.FormMargin
import Verif.Props.FormFormulation
import Verif.Props.FormFormulationExample
import Verif.Spec.FormConvergence
import Verif.Lemmas.HlrfNoise
import Verif.Props.FormNoise
import Verif.Props.NarrowSampling
import Verif.Props.Complement
import Verif.Props.SormSmooth
import Verif.Props.SormSmoothExample
import Verif.Props.SensDistance
import Verif.Props.SensDistanceExample
import Verif.Lemmas.AlphaNewton
import Verif.Model.CalibrationForm
import Verif.Spec.CalibrationAlpha
import Verif.Props.CalibrationAlpha
import Verif.Props.CalibrationAlphaLinear
import Verif.Props.SensNumerical
import Verif.Props.FormAccuracy
import Verif.Props.CalibrationLife
import Verif.Spec.SampleLimit
import Verif.Props.SampleLimit
import Verif.Lemmas.StudentLimit
import Verif.Props.Confidence
import Verif.Lemmas.Kolmogorov
import Verif.Lemmas.Anscombe
import Verif.Props.Stopping
import Verif.Props.SensOptions
import Verif.Props.GenericForm
import Verif.Props.GenericDesign
import Verif.Witness.Basic
import Verif.Witness.Laws
import Verif.Witness.Analyses
import Verif.Witness.Sorm
import Verif.Witness.Calibration
import Verif.Witness.MonteCarlo
import Verif.Witness.Mutable
import Verif.Witness.Samples
import Verif.Witness.Sessions
import Verif.Spec.LogMargin
import Verif.Props.FormLognormal
import Verif.Props.FormLognormalExample
import Verif.Props.GenericNames
import Verif.Spec.NatafCorrelation
import Verif.Lemmas.NatafCorrelation
import Verif.Props.NatafCorrelation
import Verif.Props.NatafClosed
import Verif.Lemmas.Slepian
import Verif.Props.SystemCorrelation
import Verif.Props.Dominance
import Verif.Props.ImportanceGain
import Verif.Props.ImportanceOptimal
import Verif.Props.SamplingWidth
import Verif.Props.ExactLaw
import Verif.Props.SubsetLaw
import Verif.Props.SubsetModes
import Verif.Props.LineModes
import Verif.Props.LineCost
import Verif.Props.SubsetLevelMean
import Verif.Props.LineDirection
import Verif.Props.LineAngle
import Verif.Props.SormCost
import Verif.Props.SessionCost
import Verif.Props.CounterTruth
import Verif.Props.MomentDifferences
