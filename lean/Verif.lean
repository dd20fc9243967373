import Verif.Lemmas.Additive
import Verif.Lemmas.AdditiveN
import Verif.Lemmas.AffineChf
import Verif.Lemmas.AffineLaw
import Verif.Lemmas.ArrRv
import Verif.Lemmas.ArrSDE
import Verif.Lemmas.Back
import Verif.Lemmas.BackLaw
import Verif.Lemmas.Broadcast
import Verif.Lemmas.CPoissonLawDn
import Verif.Lemmas.CPoissonLawIdeal
import Verif.Lemmas.CPoissonLawInd
import Verif.Lemmas.CPoissonLawJumps
import Verif.Lemmas.CPoissonLawMain
import Verif.Lemmas.CPoissonLawSteps
import Verif.Lemmas.CPoissonLawSum
import Verif.Lemmas.Chain
import Verif.Lemmas.CirLaw
import Verif.Lemmas.CirMoments
import Verif.Lemmas.Confidence
import Verif.Lemmas.CorrNormal
import Verif.Lemmas.Cov
import Verif.Lemmas.Draws
import Verif.Lemmas.Elementwise
import Verif.Lemmas.EstimatesN
import Verif.Lemmas.Expon
import Verif.Lemmas.Gauss
import Verif.Lemmas.HestonDecay
import Verif.Lemmas.HestonMoments
import Verif.Lemmas.Info
import Verif.Lemmas.Inversion
import Verif.Lemmas.Isonormal
import Verif.Lemmas.Jet
import Verif.Lemmas.JumpCells
import Verif.Lemmas.JumpLaw
import Verif.Lemmas.JumpProcess
import Verif.Lemmas.JumpRvs
import Verif.Lemmas.JumpSource
import Verif.Lemmas.Levy
import Verif.Lemmas.LevyMore
import Verif.Lemmas.LevyUnif
import Verif.Lemmas.Means
import Verif.Lemmas.MonteCarlo
import Verif.Lemmas.NcGamma
import Verif.Lemmas.NcGammaChf
import Verif.Lemmas.NoiseCells
import Verif.Lemmas.Normal
import Verif.Lemmas.Ode
import Verif.Lemmas.OuLaw
import Verif.Lemmas.OuLimit
import Verif.Lemmas.Packing
import Verif.Lemmas.PathsCall
import Verif.Lemmas.PathsGenerator
import Verif.Lemmas.PathsPure
import Verif.Lemmas.PathsSafe
import Verif.Lemmas.PathsSim
import Verif.Lemmas.PathsTrace
import Verif.Lemmas.PoissonLaw
import Verif.Lemmas.Presets
import Verif.Lemmas.ProcMem
import Verif.Lemmas.Rounding
import Verif.Lemmas.Runs
import Verif.Lemmas.SDE
import Verif.Lemmas.SDEHom
import Verif.Lemmas.SDEs
import Verif.Lemmas.Sharp
import Verif.Lemmas.Sources
import Verif.Lemmas.SrcSim
import Verif.Lemmas.StepMoments
import Verif.Lemmas.Stream
import Verif.Lemmas.Strong
import Verif.Lemmas.StrongLaw
import Verif.Lemmas.StrongLimit
import Verif.Lemmas.StrongLink
import Verif.Lemmas.StrongN
import Verif.Lemmas.StrongNLaw
import Verif.Lemmas.StrongNLink
import Verif.Lemmas.TrueCPoisson
import Verif.Lemmas.TrueSource
import Verif.Lemmas.Variances
import Verif.Lemmas.Wiener
import Verif.Lemmas.WienerLaw
import Verif.Model.Analytical
import Verif.Model.Args
import Verif.Model.ArrAnalytical
import Verif.Model.ArrPresets
import Verif.Model.ArrRv
import Verif.Model.ArrSDE
import Verif.Model.ArrTrueWiener
import Verif.Model.Calls
import Verif.Model.ChfPdf
import Verif.Model.CirPdf
import Verif.Model.FloatAnalytical
import Verif.Model.Generators
import Verif.Model.Heston
import Verif.Model.Indexed
import Verif.Model.Info
import Verif.Model.InterpKinds
import Verif.Model.JumpSources
import Verif.Model.Kfunc
import Verif.Model.McIndex
import Verif.Model.McPdf
import Verif.Model.McSlice
import Verif.Model.McUpdate
import Verif.Model.MonteCarlo
import Verif.Model.Packing
import Verif.Model.Params
import Verif.Model.PathsGenerator
import Verif.Model.PoissonTypes
import Verif.Model.Presets
import Verif.Model.ProcMem
import Verif.Model.ProcSource
import Verif.Model.Process
import Verif.Model.ProcessInt
import Verif.Model.ProcessKeys
import Verif.Model.Rv
import Verif.Model.Rvmap
import Verif.Model.SDE
import Verif.Model.SDEs
import Verif.Model.Shortcuts
import Verif.Model.SourceSize
import Verif.Model.Sources
import Verif.Model.TrueCPoisson
import Verif.Model.TrueNoise
import Verif.Model.TrueSource
import Verif.Model.TrueWiener
import Verif.Model.UnsignedTime
import Verif.Np
import Verif.NpFloat
import Verif.NpIndex
import Verif.NpMore
import Verif.Props.Additive
import Verif.Props.AdditiveLaw
import Verif.Props.Antithetic
import Verif.Props.AntitheticJumps
import Verif.Props.AntitheticLaw
import Verif.Props.AntitheticMC
import Verif.Props.Args
import Verif.Props.ArrAnalytical
import Verif.Props.ArrRv
import Verif.Props.ArrSDE
import Verif.Props.ArrTrueWiener
import Verif.Props.Back
import Verif.Props.BackLaw
import Verif.Props.BlackScholes
import Verif.Props.CPoisson
import Verif.Props.CPoissonLaw
import Verif.Props.Calls
import Verif.Props.Chf
import Verif.Props.ChfPdf
import Verif.Props.CirConv
import Verif.Props.CirLaw
import Verif.Props.CirPdf
import Verif.Props.Confidence
import Verif.Props.Estimates
import Verif.Props.EstimatesN
import Verif.Props.EvenOdd
import Verif.Props.FloatAnalytical
import Verif.Props.Generators
import Verif.Props.Heston
import Verif.Props.HestonChf
import Verif.Props.HestonConv
import Verif.Props.HestonLaw
import Verif.Props.HestonPdf
import Verif.Props.Hw2f
import Verif.Props.Indexed
import Verif.Props.Info
import Verif.Props.InterpKinds
import Verif.Props.JumpLaw
import Verif.Props.Kfunc
import Verif.Props.McBroadcast
import Verif.Props.McConsistent
import Verif.Props.McConsistentSim
import Verif.Props.McIndex
import Verif.Props.McLaw
import Verif.Props.McPdf
import Verif.Props.McSlice
import Verif.Props.McUpdate
import Verif.Props.Means
import Verif.Props.Moments
import Verif.Props.MonteCarlo
import Verif.Props.MonteCarloFail
import Verif.Props.Ode
import Verif.Props.OuLaw
import Verif.Props.Packing
import Verif.Props.Params
import Verif.Props.Paths
import Verif.Props.PathsCall
import Verif.Props.PathsMC
import Verif.Props.PathsMore
import Verif.Props.PathsVar
import Verif.Props.Pdf
import Verif.Props.Piecewise
import Verif.Props.PoissonLaw
import Verif.Props.PoissonTypes
import Verif.Props.Presets
import Verif.Props.ProcMem
import Verif.Props.ProcSource
import Verif.Props.Process
import Verif.Props.ProcessCdf
import Verif.Props.ProcessIndex
import Verif.Props.ProcessInt
import Verif.Props.ProcessInterp
import Verif.Props.ProcessKeys
import Verif.Props.ProcessSummary
import Verif.Props.ProcessTime
import Verif.Props.ProcessUfunc
import Verif.Props.Rounding
import Verif.Props.Rv
import Verif.Props.RvPublic
import Verif.Props.Rvmap
import Verif.Props.SDE
import Verif.Props.SDEs
import Verif.Props.Sharp
import Verif.Props.Shortcuts
import Verif.Props.SourceSize
import Verif.Props.Sources
import Verif.Props.Strong
import Verif.Props.StrongLaw
import Verif.Props.StrongN
import Verif.Props.StrongNLaw
import Verif.Props.StrongSolution
import Verif.Props.TrueCPoisson
import Verif.Props.TrueSource
import Verif.Props.UnsignedTime
import Verif.Props.Variances
import Verif.Props.VariancesBack
import Verif.Props.Wiener
import Verif.Props.WienerLaw
import Verif.Props.WienerSource
import Verif.Py
import Verif.Spec.Additive
import Verif.Spec.Antithetic
import Verif.Spec.AntitheticLaw
import Verif.Spec.ArrSDE
import Verif.Spec.Back
import Verif.Spec.BackLaw
import Verif.Spec.Chain
import Verif.Spec.Cov
import Verif.Spec.Elementwise
import Verif.Spec.EstimatesN
import Verif.Spec.HestonLaw
import Verif.Spec.Info
import Verif.Spec.Levy
import Verif.Spec.McLaw
import Verif.Spec.Means
import Verif.Spec.MonteCarlo
import Verif.Spec.Ode
import Verif.Spec.OuLaw
import Verif.Spec.Params
import Verif.Spec.PathsGenerator
import Verif.Spec.PoissonLaw
import Verif.Spec.Presets
import Verif.Spec.Rounding
import Verif.Spec.SDE
import Verif.Spec.SDEs
import Verif.Spec.Sharp
import Verif.Spec.Sources
import Verif.Spec.Strong
import Verif.Spec.StrongN
import Verif.Spec.StrongNLaw
import Verif.Spec.TrueCPoisson
import Verif.Spec.TrueSource
import Verif.Spec.Variances
import Verif.Spec.Wiener
import Verif.Spec.WienerLaw
