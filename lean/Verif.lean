import Verif.Lemmas.Affinity
import Verif.Lemmas.Alias
import Verif.Lemmas.ArchFamilies
import Verif.Lemmas.ArchGen
import Verif.Lemmas.ArchLaw
import Verif.Lemmas.ArchTau
import Verif.Lemmas.Clausen
import Verif.Lemmas.ClaytonLik
import Verif.Lemmas.ClaytonNeg
import Verif.Lemmas.ClaytonRanks
import Verif.Lemmas.Consistency
import Verif.Lemmas.Contrast
import Verif.Lemmas.CopulaDensity
import Verif.Lemmas.CopulaMeasure
import Verif.Lemmas.CovMatrix
import Verif.Lemmas.CubeLaw
import Verif.Lemmas.Debye
import Verif.Lemmas.DebyeApprox
import Verif.Lemmas.DebyeTail
import Verif.Lemmas.Dilog
import Verif.Lemmas.DilogComplex
import Verif.Lemmas.DilogSeries
import Verif.Lemmas.DilogTaylor
import Verif.Lemmas.Draws
import Verif.Lemmas.EllFns
import Verif.Lemmas.Elliptical
import Verif.Lemmas.EmAscent
import Verif.Lemmas.EmpConsistency
import Verif.Lemmas.EmpKernel
import Verif.Lemmas.Empirical
import Verif.Lemmas.ExchLaw
import Verif.Lemmas.ExchPower
import Verif.Lemmas.ExchTest
import Verif.Lemmas.Exclude
import Verif.Lemmas.Fit
import Verif.Lemmas.Frailty
import Verif.Lemmas.FrankLik
import Verif.Lemmas.FrankMulti
import Verif.Lemmas.FrankTau
import Verif.Lemmas.GaussMeasure
import Verif.Lemmas.GaussMl
import Verif.Lemmas.GaussMlFit
import Verif.Lemmas.Gmc
import Verif.Lemmas.GmcDensityLaw
import Verif.Lemmas.GmmLaw
import Verif.Lemmas.GmmPpf
import Verif.Lemmas.GofArch
import Verif.Lemmas.GofRun
import Verif.Lemmas.GofStat
import Verif.Lemmas.GofTest
import Verif.Lemmas.GumbelCoef
import Verif.Lemmas.GumbelLik
import Verif.Lemmas.GumbelPoly
import Verif.Lemmas.GumbelReal
import Verif.Lemmas.GumbelTau
import Verif.Lemmas.GumbelWald
import Verif.Lemmas.IdealGen
import Verif.Lemmas.IrhoFit
import Verif.Lemmas.ItauFit
import Verif.Lemmas.Kanter
import Verif.Lemmas.LawsDiffer
import Verif.Lemmas.LawsDifferEll
import Verif.Lemmas.Li2
import Verif.Lemmas.Li2Cut
import Verif.Lemmas.ListPoly
import Verif.Lemmas.ListPolyPos
import Verif.Lemmas.LogScores
import Verif.Lemmas.LogSum
import Verif.Lemmas.MarginDensity
import Verif.Lemmas.MarginLaw
import Verif.Lemmas.Mixed
import Verif.Lemmas.MixedComp
import Verif.Lemmas.NormApprox
import Verif.Lemmas.NormScores
import Verif.Lemmas.NormalMix
import Verif.Lemmas.NormalPairs
import Verif.Lemmas.Orthant
import Verif.Lemmas.PairLaw
import Verif.Lemmas.PdfClayton
import Verif.Lemmas.PdfFrank
import Verif.Lemmas.PdfGumbel
import Verif.Lemmas.PdfGumbelRow
import Verif.Lemmas.PolyLog
import Verif.Lemmas.PowExp
import Verif.Lemmas.RadSym
import Verif.Lemmas.RadSymLaw
import Verif.Lemmas.RadSymTest
import Verif.Lemmas.Ranks
import Verif.Lemmas.ReplicateLevel
import Verif.Lemmas.SampleLaw
import Verif.Lemmas.Sampler
import Verif.Lemmas.ScoreMoments
import Verif.Lemmas.Spearman
import Verif.Lemmas.Special
import Verif.Lemmas.Stable
import Verif.Lemmas.StableDensity
import Verif.Lemmas.StableLimits
import Verif.Lemmas.StableOneLaw
import Verif.Lemmas.StablePdf
import Verif.Lemmas.StablePdfMain
import Verif.Lemmas.StablePdfOne
import Verif.Lemmas.Stirling
import Verif.Lemmas.StudentMeasure
import Verif.Lemmas.StudentRho
import Verif.Lemmas.StudentTail
import Verif.Lemmas.TailDep
import Verif.Lemmas.Tri
import Verif.Lemmas.UStat
import Verif.Lemmas.Volume
import Verif.Lemmas.WaldContrast
import Verif.Lemmas.Zeta3
import Verif.Model.Alias
import Verif.Model.ArchPdf
import Verif.Model.ArchRandom
import Verif.Model.Archimedean
import Verif.Model.Correlation
import Verif.Model.Debye
import Verif.Model.Dict
import Verif.Model.Dilog
import Verif.Model.DilogComplex
import Verif.Model.DilogComplexCall
import Verif.Model.Display
import Verif.Model.EllDensity
import Verif.Model.Elliptical
import Verif.Model.Empirical
import Verif.Model.FindRoot
import Verif.Model.Fit
import Verif.Model.FitDf
import Verif.Model.FlAlg
import Verif.Model.Gmc
import Verif.Model.GmcEm
import Verif.Model.GmcFit
import Verif.Model.GmcPpf
import Verif.Model.Gof
import Verif.Model.GofIndep
import Verif.Model.GofPar
import Verif.Model.GofRun
import Verif.Model.GumbelCoef
import Verif.Model.IndepLogLik
import Verif.Model.Keyword
import Verif.Model.Labels
import Verif.Model.Linalg
import Verif.Model.LogLik
import Verif.Model.Marginal
import Verif.Model.MarginalEll
import Verif.Model.MarginalGmc
import Verif.Model.Measures
import Verif.Model.MultivariateT
import Verif.Model.Num
import Verif.Model.PickandsDeriv
import Verif.Model.PyErr
import Verif.Model.Ranks
import Verif.Model.Reshape
import Verif.Model.Seeding
import Verif.Model.SgdOptions
import Verif.Model.SpecFunc
import Verif.Model.Special
import Verif.Model.Stable
import Verif.Model.StablePdf
import Verif.Model.StablePdfOne
import Verif.Model.Threads
import Verif.Model.Tri
import Verif.Model.Trig
import Verif.Model.Univariate
import Verif.Props.Alias
import Verif.Props.AliasInt
import Verif.Props.ArchCdf
import Verif.Props.ArchLaw
import Verif.Props.ArchMeasures
import Verif.Props.ArchParams
import Verif.Props.ArchPdf
import Verif.Props.ArchPdfRows
import Verif.Props.ArchRandom
import Verif.Props.ArchTail
import Verif.Props.ArchVolume
import Verif.Props.Clausen
import Verif.Props.ClaytonMl
import Verif.Props.Consistency
import Verif.Props.CorrInvariance
import Verif.Props.Correlation
import Verif.Props.CovMatrix
import Verif.Props.Debye
import Verif.Props.DebyeAccuracy
import Verif.Props.Dict
import Verif.Props.Dilog
import Verif.Props.DilogComplex
import Verif.Props.DilogComplexCall
import Verif.Props.Display
import Verif.Props.EllConcordance
import Verif.Props.EllIndex
import Verif.Props.EllTail
import Verif.Props.Elliptical
import Verif.Props.EmAscent
import Verif.Props.EmpConsistency
import Verif.Props.EmpObject
import Verif.Props.Empirical
import Verif.Props.EmpiricalPdf
import Verif.Props.ExchVerdict
import Verif.Props.FamilyLikelihood
import Verif.Props.FindRoot
import Verif.Props.Fit
import Verif.Props.FitDf
import Verif.Props.FitInv
import Verif.Props.FitStart
import Verif.Props.Frailty
import Verif.Props.FrankAccuracy
import Verif.Props.FrankMl
import Verif.Props.FrankTau
import Verif.Props.GaussMl
import Verif.Props.GaussianCopula
import Verif.Props.GmcDensity
import Verif.Props.GmcEm
import Verif.Props.GmcEmLoop
import Verif.Props.GmcFit
import Verif.Props.GmcKmeans
import Verif.Props.GmcLogLik
import Verif.Props.GmcParam
import Verif.Props.GmmMargin
import Verif.Props.GmmPpf
import Verif.Props.Gof
import Verif.Props.GofIndep
import Verif.Props.GofIndepLevel
import Verif.Props.GofIndepPar
import Verif.Props.GofIndepWorkers
import Verif.Props.GofPar
import Verif.Props.GofParPower
import Verif.Props.GofPower
import Verif.Props.GofReplicateTies
import Verif.Props.GofReplicates
import Verif.Props.GumbelCoef
import Verif.Props.GumbelMl
import Verif.Props.GumbelPoly
import Verif.Props.GumbelRandom
import Verif.Props.IndepMl
import Verif.Props.ItauConsistency
import Verif.Props.Keyword
import Verif.Props.Labels
import Verif.Props.Likelihood
import Verif.Props.LikelihoodChoice
import Verif.Props.Linalg
import Verif.Props.MarginLaw
import Verif.Props.MarginalCopula
import Verif.Props.MarginalFit
import Verif.Props.MarginalGmc
import Verif.Props.Marginals
import Verif.Props.MarginalsRange
import Verif.Props.ModelChoice
import Verif.Props.ModelRows
import Verif.Props.MultivariateT
import Verif.Props.PickandsDeriv
import Verif.Props.RadSymPower
import Verif.Props.RankTies
import Verif.Props.Ranks
import Verif.Props.Reshape
import Verif.Props.SampleLaw
import Verif.Props.SampleRows
import Verif.Props.SeededStudent
import Verif.Props.Seeding
import Verif.Props.SgdOptions
import Verif.Props.SpearmanConsistency
import Verif.Props.SpecFunc
import Verif.Props.Special
import Verif.Props.StableLaw
import Verif.Props.StableLimits
import Verif.Props.StableOneFail
import Verif.Props.StableOneRvs
import Verif.Props.StablePdf
import Verif.Props.StablePdfLaw
import Verif.Props.StablePdfMirror
import Verif.Props.StablePdfOne
import Verif.Props.StablePdfZero
import Verif.Props.StudentCopula
import Verif.Props.Threads
import Verif.Props.Trig
import Verif.Props.Univariate
import Verif.Spec.Binding
import Verif.Spec.Concordance
import Verif.Spec.Consistency
import Verif.Spec.Copula
import Verif.Spec.EllLaw
import Verif.Spec.Exch
import Verif.Spec.GmmLaw
import Verif.Spec.IsCopula
import Verif.Spec.Margin
import Verif.Spec.MarginLaw
import Verif.Spec.Mixed
import Verif.Spec.MultivariateT
import Verif.Spec.Owned
import Verif.Spec.RadSym
import Verif.Spec.Sampling
import Verif.Spec.Spearman
import Verif.Spec.Stable
import Verif.Spec.StableOne
import Verif.Spec.TailDep
