import Verif.Props.Bitmask
import Verif.Props.TimeDict
import Verif.Props.Time
import Verif.Props.Rank
import Verif.Props.Operator
import Verif.Props.Linear
import Verif.Props.Snapshots
import Verif.Props.Hankel
import Verif.Props.Prepost
import Verif.Props.MrDMD
import Verif.Props.Tuner
import Verif.Props.Predict
import Verif.Props.Param
import Verif.Props.Dmdc
import Verif.Props.Differentiate
import Verif.Props.SpDmd
import Verif.Props.Costs
import Verif.Props.Havok
import Verif.Props.Bop
import Verif.Props.BopEigs
import Verif.Lemmas.Lstsq
import Verif.Model.Pidmd
import Verif.Props.Pidmd
import Verif.Props.PidmdBand
import Verif.Model.PidmdFft
import Verif.Lemmas.Fourier
import Verif.Props.PidmdFft
import Verif.Props.PidmdBlock
import Verif.Model.Lando
import Verif.Model.LandoState
import Verif.Lemmas.Lando
import Verif.Lemmas.LandoOnline
import Verif.Props.Lando
import Verif.Props.LandoDict
import Verif.Props.LandoOnline
import Verif.Props.LandoState
import Verif.Model.Refit
import Verif.Props.Refit
import Verif.Model.Compressed
import Verif.Lemmas.Compressed
import Verif.Props.Compressed
import Verif.Lemmas.EckartYoung
import Verif.Model.OptDmd
import Verif.Props.OptDmd
import Verif.Props.Tlsq
import Verif.Model.Subspace
import Verif.Props.Subspace
import Verif.Model.Edmd
import Verif.Props.Edmd
import Verif.Model.VarPro
import Verif.Lemmas.SvdExists
import Verif.Lemmas.VarPro
import Verif.Props.VarPro
import Verif.Props.VarProFit
import Verif.Model.BopStep
import Verif.Lemmas.BopStep
import Verif.Props.BopStep
import Verif.Model.MrLeaves
import Verif.Lemmas.MrLeaves
import Verif.Props.MrLeaves
import Verif.Model.Hodmd
import Verif.Props.Hodmd
import Verif.Props.PrepostPair
import Verif.Model.CostsIo
import Verif.Props.CostsIo
import Verif.Model.CostsRank
import Verif.Props.CostsRank
import Verif.Model.MrCosts
import Verif.Lemmas.MrCosts
import Verif.Props.MrCosts
import Verif.Model.CostsInit
import Verif.Props.CostsInit
import Verif.Model.BopSort
import Verif.Props.BopSort
import Verif.Model.BopEcon
import Verif.Props.BopEcon
import Verif.Model.HavokSim
import Verif.Props.HavokSim
import Verif.Props.HavokThreshold
import Verif.Model.HavokFit
import Verif.Props.HavokFit
import Verif.Props.ParamNew
import Verif.Model.Spectrum
import Verif.Props.Spectrum
import Verif.Props.SpDmdAdmm
import Verif.Model.Plotter
import Verif.Props.Plotter
import Verif.Model.MrCostsState
import Verif.Props.MrCostsState
import Verif.Props.MrCostsFiles
import Verif.Model.UqPlot
import Verif.Props.UqPlot
import Verif.Model.CostsKern
import Verif.Props.CostsKern
import Verif.Model.Wrapped
import Verif.Props.Wrapped
import Verif.Model.LandoKernel
import Verif.Props.LandoKernel
import Verif.Model.BopStd
import Verif.Props.BopStd
import Verif.Model.BopOpts
import Verif.Props.BopOpts
import Verif.Model.CostsPad
import Verif.Props.CostsPad
import Verif.Model.CostsPlot
import Verif.Props.CostsPlot
import Verif.Spec.RealData
import Verif.Props.RealData
import Verif.Model.Whole
import Verif.Props.Whole
import Verif.Props.Special
import Verif.Props.Frequencies
import Verif.Lemmas.SvdUnique
import Verif.Props.Unique
import Verif.Model.BopOps
import Verif.Props.BopOps
import Verif.Lemmas.ResultLimit
import Verif.Props.Continuity
import Verif.Model.LandoFit
import Verif.Props.LandoFit
import Verif.Props.SpDmdGamma
import Verif.Model.OptAmps
import Verif.Props.DmdcOptions
import Verif.Props.PidmdRecover
import Verif.Model.MrFit
import Verif.Props.MrSeparate
import Verif.Lemmas.PinvExists
import Verif.Model.PidmdOps
import Verif.Props.PidmdOps
import Verif.Lemmas.EigExists
import Verif.Props.Sampling
import Verif.Model.FailedFit
import Verif.Props.FailedFit
import Verif.Model.Possible
import Verif.Props.Coordinates
import Verif.Props.RankFit
import Verif.Model.BopRun
import Verif.Lemmas.BopTime
import Verif.Lemmas.BopUnit
import Verif.Lemmas.QrExists
import Verif.Props.BopTime
import Verif.Props.BopGuess
import Verif.Lemmas.BopReal
import Verif.Props.BopReal
import Verif.Lemmas.BopOrder
import Verif.Props.BopOrder
import Verif.Lemmas.InvRoots
import Verif.Props.Reverse
import Verif.Props.Tikhonov
import Verif.Props.PidmdReal
import Verif.Props.SpDmdSym
import Verif.Props.PidmdEnergy
import Verif.Model.VarProRun
import Verif.Props.VarProTime
import Verif.Model.Alias
import Verif.Props.Alias
import Verif.Props.RealClasses
import Verif.Props.ParamOrder
import Verif.Model.HavokGains
import Verif.Lemmas.HavokGains
import Verif.Props.HavokForced
import Verif.Spec.Distinct
import Verif.Model.HavokModel
import Verif.Lemmas.HavokModel
import Verif.Props.HavokUnique
import Verif.Props.Edges
import Verif.Model.LandoModel
import Verif.Lemmas.LandoRbf
import Verif.Lemmas.LandoTransport
import Verif.Props.LandoInvariance
import Verif.Props.Edges2
import Verif.Props.Variables
import Verif.Model.ParamShared
import Verif.Props.ParamShared
import Verif.Model.CostsWhole
import Verif.Props.CostsWhole
import Verif.Model.VarProWhole
import Verif.Props.VarProCoords
import Verif.Model.ParamPod
import Verif.Props.ParamCoords
import Verif.Props.CostsArrays
import Verif.Props.VarProStart
import Verif.Props.CostsUnits
import Verif.Props.CostsClock
import Verif.Model.MrCostsWhole
import Verif.Props.MrCostsUnits
import Verif.Props.MrCostsBackground
import Verif.Props.MrCostsLevels
import Verif.Props.DmdcResponse
import Verif.Props.LandoGuards
import Verif.Props.DmdcRestart
import Verif.Props.VarProLast
