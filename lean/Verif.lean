import Verif.Props.Car1
import Verif.Props.Carma
import Verif.Props.Param
import Verif.Props.LogPost
import Verif.Props.Data
import Verif.Props.Quirks
import Verif.Props.History
import Verif.Model.Sampler
import Verif.Theory.FilterTotal
import Verif.Props.Ram
import Verif.Theory.Sampler
import Verif.Model.Proposals
import Verif.Props.Mcmc
import Verif.Theory.Builders
import Verif.Props.Safety
import Verif.Props.Run
import Verif.Props.Start
import Verif.Props.Stretch
import Verif.Props.Faults
import Verif.Props.Lorentz
import Verif.Props.Spectrum
import Verif.Props.Generate
import Verif.Props.Prompt
import Verif.Props.PyModel
import Verif.Props.PySample
import Verif.Props.MleBox
import Verif.Props.Equi
import Verif.Props.AnyInit
import Verif.Props.PyRun
import Verif.Props.PyKalman
import Verif.Props.ErrorFree
import Verif.Props.PyFit
import Verif.Props.PyBand
import Verif.Props.PyPost
import Verif.Props.Stationary
import Verif.Props.Proper
import Verif.Props.Average
import Verif.Props.IntRun
import Verif.Props.Report
import Verif.Props.Float
import Verif.Props.FloatAcc
import Verif.Props.Laws
import Verif.Props.Terminates
import Verif.Props.Units
import Verif.Props.Labels
import Verif.Props.Behave
import Verif.Props.SimLaw
import Verif.Props.Density
import Verif.Theory.RunMap
import Verif.Theory.RunNull
import Verif.Theory.RunRef
import Verif.Theory.StartRef
import Verif.Theory.StartLaw
import Verif.Props.RunLaw
import Verif.Props.RunLaw1
import Verif.Spec.Settle
import Verif.Theory.NullAvg
import Verif.Theory.NullSweep
import Verif.Theory.NullMass
import Verif.Props.NeverSettles
import Verif.Spec.LimitLaw
import Verif.Theory.MarkovLimit
import Verif.Theory.LimitSweep
import Verif.Props.LimitLaw
import Verif.Spec.Alias
import Verif.Theory.Alias
import Verif.Props.Identify
import Verif.Model.PyFile
import Verif.Spec.PyFile
import Verif.Theory.PyFile
import Verif.Props.PyFile
import Verif.Theory.RunLimit
import Verif.Theory.StartFresh
import Verif.Props.RunLimit
import Verif.Theory.FConstruct
import Verif.Model.FRun
import Verif.Spec.RunVar
import Verif.Theory.FRun
import Verif.Theory.FSetup
import Verif.Props.FRun
import Verif.Spec.Identify
import Verif.Theory.Prony
import Verif.Theory.IdentP
import Verif.Theory.Cancel
import Verif.Props.IdentifyP
import Verif.Theory.ErrFreeMat
import Verif.Theory.ErrFreePost
import Verif.Theory.ErrFreeMa
import Verif.Theory.ErrFreeMass
import Verif.Model.FSamp
import Verif.Spec.FSamp
import Verif.Theory.FHist
import Verif.Theory.FSamp
import Verif.Theory.FRunSamp
import Verif.Theory.FFinite
import Verif.Theory.FFrozen
import Verif.Theory.FCar1Run
import Verif.Props.FSamp
import Verif.Theory.FSim
import Verif.Theory.FSim1
import Verif.Props.FSim
import Verif.Model.FPredict
import Verif.Spec.FPredict
import Verif.Theory.FPredict
import Verif.Theory.FPredNum
import Verif.Theory.FPredRun
import Verif.Theory.FPredExact
import Verif.Theory.FPredNew
import Verif.Theory.FPredSame
import Verif.Props.FPredict
import Verif.Props.SimOrder
import Verif.Model.FStart
import Verif.Spec.FStart
import Verif.Theory.FStart
import Verif.Props.FStart
import Verif.Model.FSimulate
import Verif.Spec.FSimulate
import Verif.Theory.FSimTotal
import Verif.Theory.FSimNan
import Verif.Theory.FSimulate
import Verif.Theory.FSimExact
import Verif.Props.FSimulate
import Verif.Spec.FSimAll
import Verif.Theory.FSimFwd
import Verif.Theory.FSimBack
import Verif.Theory.FSimAll
import Verif.Props.FSimAll
import Verif.Model.PyPool
import Verif.Spec.PyPool
import Verif.Theory.PyPool
import Verif.Props.PyPool
import Verif.Model.PyTrial
import Verif.Spec.PyTrial
import Verif.Theory.Wide
import Verif.Props.Wide
import Verif.Theory.PyTrial
import Verif.Props.PyTrial
import Verif.Model.PyStore
import Verif.Theory.PyStore
import Verif.Props.PyStore
import Verif.Model.FCarma
import Verif.Spec.FCarma
import Verif.Theory.FCarmaInf
import Verif.Theory.FCarmaHist
import Verif.Theory.FCarmaExact
import Verif.Theory.FCarmaLift
import Verif.Theory.FCarmaEdge
import Verif.Props.FCarma
import Verif.Model.FCarmaRun
import Verif.Spec.FCarmaRun
import Verif.Theory.FRunSearch
import Verif.Theory.FCarmaRun
import Verif.Theory.FCarmaEns
import Verif.Theory.FTemps
import Verif.Props.FCarmaRun
import Verif.Theory.FPredEval
import Verif.Theory.FCoef
import Verif.Theory.FPredReal
import Verif.Theory.FPredErr
import Verif.Theory.FPredSum
import Verif.Theory.FPredCoef
import Verif.Theory.FPredFin
import Verif.Theory.FPredList
import Verif.Theory.FPredAcc
import Verif.Props.FPredAcc
import Verif.Props.FTwo
import Verif.Model.FStartP
import Verif.Spec.FStartP
import Verif.Theory.FStartP
import Verif.Theory.FStartPass
import Verif.Theory.FStartAR
import Verif.Props.FStartP
import Verif.Props.FStartPExact
import Verif.Model.FPredictP
import Verif.Spec.FPredictP
import Verif.Theory.FPredictP
import Verif.Theory.FSimP
import Verif.Theory.FPredictPExact
import Verif.Props.FPredictP
import Verif.Props.StartTail
import Verif.Model.FSetP
import Verif.Spec.FSetP
import Verif.Theory.FSetP
import Verif.Props.FSetP
import Verif.Theory.FSign
import Verif.Theory.FSignP
import Verif.Theory.FSignRound
import Verif.Theory.FSignRun
import Verif.Props.FSign
import Verif.Spec.FMirror
import Verif.Theory.FMirror
import Verif.Theory.FMirrorRun
import Verif.Props.FMirror
import Verif.Spec.FOrder
import Verif.Theory.FOrder
import Verif.Theory.FOrderData
import Verif.Theory.FUnsorted
import Verif.Props.FOrder
import Verif.Spec.FErrSign
import Verif.Theory.FErrSign
import Verif.Props.FErrSign
import Verif.Theory.FBisim
import Verif.Props.FErrRun
