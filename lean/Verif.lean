import Verif.Model.Py
import Verif.Model.NDArray
import Verif.Model.Mappings
import Verif.Lemmas.Mappings
import Verif.Props.Mappings
import Verif.Model.Linalg
import Verif.Lemmas.MatFun
import Verif.Lemmas.Linalg
import Verif.Props.Linalg
import Verif.Model.Checking
import Verif.Model.MonteCarlo
import Verif.Props.Utils
import Verif.Model.FeatureArray
import Verif.Model.Base
import Verif.Spec.FeatureArray
import Verif.Lemmas.FeatureArray
import Verif.Lemmas.FeatureArrayObs
import Verif.Lemmas.FeatureArrayVec
import Verif.Lemmas.Base
import Verif.Props.FeatureArray
import Verif.Props.Base
import Verif.Model.Covariance
import Verif.Model.Cost
import Verif.Spec.Covariance
import Verif.Spec.Cost
import Verif.Lemmas.FixedPoint
import Verif.Lemmas.MStep
import Verif.Lemmas.Steps
import Verif.Lemmas.Runs
import Verif.Lemmas.RealEmbed
import Verif.Lemmas.Cost
import Verif.Props.CovLoop
import Verif.Props.CovRun
import Verif.Props.Huber
import Verif.Props.Cost
import Verif.Spec.Optimality
import Verif.Lemmas.Unique
import Verif.Lemmas.Order
import Verif.Lemmas.Converge
import Verif.Lemmas.Limits
import Verif.Lemmas.TylerConverge
import Verif.Props.Optimality
import Verif.Props.Converge
import Verif.Model.Estimators
import Verif.Spec.Estimators
import Verif.Lemmas.Estimators
import Verif.Props.Estimators
import Verif.Model.Manifolds
import Verif.Spec.Manifolds
import Verif.Lemmas.Manifolds
import Verif.Lemmas.MatDeriv
import Verif.Props.SPV
import Verif.Props.HPD
import Verif.Props.HPDGeom
import Verif.Props.HPDDist
import Verif.Props.Product
import Verif.Spec.ProductHess
import Verif.Props.ProductHess
import Verif.Model.Probability
import Verif.Spec.Probability
import Verif.Spec.Rvs
import Verif.Lemmas.Probability
import Verif.Lemmas.Rvs
import Verif.Lemmas.GaussSampler
import Verif.Props.Probability
import Verif.Props.Rvs
import Verif.Model.Structured
import Verif.Spec.Structured
import Verif.Lemmas.Structured
import Verif.Props.Structured
import Verif.Props.KronStudent
import Verif.Model.Online
import Verif.Spec.Online
import Verif.Props.Online
import Verif.Model.GenData
import Verif.Spec.GenData
import Verif.Lemmas.GenData
import Verif.Props.GenData
import Verif.Props.Textures
import Verif.Spec.Exist
import Verif.Lemmas.Demo
import Verif.Lemmas.Exist
import Verif.Lemmas.ExistIff
import Verif.Props.Exist
import Verif.Lemmas.LogDist
import Verif.Props.HPDTriangle
import Verif.Spec.Huber
import Verif.Lemmas.HuberFix
import Verif.Lemmas.HuberConverge
import Verif.Lemmas.HuberCont
import Verif.Props.HuberFix
import Verif.Spec.NatGrad
import Verif.Lemmas.NatGrad
import Verif.Props.NatGrad
import Verif.Model.FeatureJobs
import Verif.Spec.FeatureJobs
import Verif.Lemmas.FeatureJobs
import Verif.Props.FeatureJobs
import Verif.Props.FeatureShape
import Verif.Model.FeatureHeap
import Verif.Spec.FeatureHeap
import Verif.Lemmas.FeatureHeap
import Verif.Lemmas.FeatureHeapSys
import Verif.Lemmas.FeatureHeapInv
import Verif.Props.FeatureHeap
import Verif.Model.Precision
import Verif.Spec.Precision
import Verif.Props.Precision
import Verif.Lemmas.KronConverge
import Verif.Props.KronConverge
import Verif.Lemmas.KronExist
import Verif.Props.KronExist
import Verif.Lemmas.KronRate
import Verif.Lemmas.KronRateRun
import Verif.Props.KronRate
import Verif.Lemmas.KronDegenerate
import Verif.Props.KronDegenerate
import Verif.Props.Tolerance
import Verif.Props.KronFit
import Verif.Props.NatGradErr
import Verif.Lemmas.Density
import Verif.Spec.Law
import Verif.Lemmas.Elliptical
import Verif.Lemmas.Law
import Verif.Props.Law
import Verif.Lemmas.ConsistDet
import Verif.Spec.Consist
import Verif.Lemmas.Consist
import Verif.Lemmas.ConsistEll
import Verif.Lemmas.ConsistLaw
import Verif.Props.Consist
import Verif.Props.EmpConsist
import Verif.Spec.Chi2
import Verif.Lemmas.HuberSandwich
import Verif.Lemmas.ConsistHuber
import Verif.Lemmas.HuberEll
import Verif.Lemmas.ChiSquare
import Verif.Lemmas.HuberNormal
import Verif.Lemmas.HuberHeavy
import Verif.Props.HuberConsist
import Verif.Props.HuberCont
import Verif.Spec.Breakdown
import Verif.Lemmas.Breakdown
import Verif.Lemmas.BreakdownTyler
import Verif.Props.Breakdown
import Verif.Model.Verbose
import Verif.Props.Verbose
import Verif.Model.FitCall
import Verif.Spec.FitCall
import Verif.Lemmas.FitCall
import Verif.Props.FitCall
import Verif.Model.KronObject
import Verif.Props.KronObject
import Verif.Spec.Fisher
import Verif.Lemmas.Fisher
import Verif.Props.Fisher
import Verif.Model.Inherited
import Verif.Props.Inherited
import Verif.Lemmas.TylerRate
import Verif.Lemmas.Rate
import Verif.Props.Rate
import Verif.Lemmas.DataCont
import Verif.Props.DataCont
import Verif.Model.Pipeline
import Verif.Spec.Pipeline
import Verif.Lemmas.Pipeline
import Verif.Props.Pipeline
import Verif.Lemmas.KronConsist
import Verif.Props.KronConsist
import Verif.Lemmas.KronMLE
import Verif.Props.KronMLE
import Verif.Lemmas.StudentLimits
import Verif.Props.StudentLimits
import Verif.Lemmas.KronCont
import Verif.Props.KronCont
import Verif.Model.FeaturePipe
import Verif.Props.FeaturePipe
import Verif.Lemmas.Affine
import Verif.Props.Affine
import Verif.Model.Rounding
import Verif.Lemmas.Rounding
import Verif.Lemmas.LocalRounding
import Verif.Lemmas.TylerRounding
import Verif.Props.Rounding
import Verif.Props.RoundingFloor
import Verif.Spec.TylerGrad
import Verif.Lemmas.TylerGrad
import Verif.Props.TylerGrad
import Verif.Model.Params
import Verif.Props.Params
import Verif.Spec.OnlineGauss
import Verif.Lemmas.OnlineGauss
import Verif.Lemmas.OnlineConsist
import Verif.Lemmas.OnlineFit
import Verif.Lemmas.OnlineProb
import Verif.Props.OnlineGauss
import Verif.Lemmas.KronMLECont
import Verif.Props.KronMLEData
import Verif.Model.KronRounding
import Verif.Lemmas.KronRounding
import Verif.Props.KronRounding
import Verif.Lemmas.EmpClt
import Verif.Props.EmpClt
import Verif.Lemmas.KronBreakdown
import Verif.Props.KronBreakdown
import Verif.Lemmas.StudentClt
import Verif.Lemmas.StudentOp
import Verif.Lemmas.StudentExpand
import Verif.Lemmas.StudentLaw
import Verif.Props.StudentClt
import Verif.Lemmas.StudentEff
import Verif.Props.StudentEff
import Verif.Lemmas.FisherReal
import Verif.Lemmas.StudentEffReal
import Verif.Spec.FisherReal
import Verif.Props.StudentEffReal
import Verif.Lemmas.TylerLaw
import Verif.Props.TylerClt
import Verif.Spec.TylerLaw
import Verif.Spec.Delta
import Verif.Lemmas.Delta
import Verif.Lemmas.Corr
import Verif.Props.Delta
import Verif.Lemmas.CorrInterval
import Verif.Props.CorrInterval
import Verif.Model.TypicalDist
import Verif.Props.TypicalDist
import Verif.Lemmas.EmpDelta
import Verif.Lemmas.TFourth
import Verif.Props.EmpDelta
import Verif.Props.EmpInterval
import Verif.Props.CohTest
import Verif.Spec.ShapeTest
import Verif.Lemmas.ChiLimit
import Verif.Lemmas.ShapeTest
import Verif.Props.ShapeTest
import Verif.Props.EmpRefit
import Verif.Props.HuberTol
import Verif.Props.CorrTest
import Verif.Props.TylerLoss
