import Verif.LemmasBatchCount
import Verif.LemmasCircuit
import Verif.LemmasCorrelated
import Verif.LemmasCut
import Verif.LemmasDouble
import Verif.LemmasFft
import Verif.LemmasFmpz
import Verif.LemmasFreq
import Verif.LemmasInvalid
import Verif.LemmasInvalidLin
import Verif.LemmasInvalidVar
import Verif.LemmasLinReg
import Verif.LemmasMem
import Verif.LemmasMemAll
import Verif.LemmasMemClient
import Verif.LemmasMemLin
import Verif.LemmasMemPre
import Verif.LemmasMemPre2
import Verif.LemmasMemSnip
import Verif.LemmasMemStore
import Verif.LemmasMemTurn
import Verif.LemmasMemVar
import Verif.LemmasNet
import Verif.LemmasOt
import Verif.LemmasPrime
import Verif.LemmasPrint
import Verif.LemmasProc
import Verif.LemmasRd
import Verif.LemmasRedraw
import Verif.LemmasRobust
import Verif.LemmasRoots
import Verif.LemmasSend
import Verif.LemmasServer
import Verif.LemmasSkew
import Verif.LemmasSnip
import Verif.LemmasSnipRun
import Verif.LemmasTamper
import Verif.LemmasVar
import Verif.LemmasVarNear
import Verif.LemmasVarOp
import Verif.LemmasView
import Verif.LemmasViewDa
import Verif.LemmasViewField
import Verif.LemmasViewFreq
import Verif.LemmasViewFreqHide
import Verif.LemmasViewFreqRun
import Verif.LemmasViewHide
import Verif.LemmasViewMask
import Verif.LemmasViewRun
import Verif.LemmasViewSession
import Verif.LemmasViewSnip
import Verif.LemmasViewWords
import Verif.ModelArgs
import Verif.ModelBytes
import Verif.ModelCircuit
import Verif.ModelClient
import Verif.ModelClientSnip
import Verif.ModelConnect
import Verif.ModelConstants
import Verif.ModelCorrelated
import Verif.ModelCut
import Verif.ModelDouble
import Verif.ModelFft
import Verif.ModelFmpz
import Verif.ModelFork
import Verif.ModelFreq
import Verif.ModelHe
import Verif.ModelInvalid
import Verif.ModelInvalidLin
import Verif.ModelInvalidVar
import Verif.ModelLinReg
import Verif.ModelMain
import Verif.ModelMem
import Verif.ModelMemAll
import Verif.ModelMemClient
import Verif.ModelMemPre
import Verif.ModelNet
import Verif.ModelOt
import Verif.ModelPoly
import Verif.ModelPrint
import Verif.ModelPrintMain
import Verif.ModelProc
import Verif.ModelRand
import Verif.ModelRecv
import Verif.ModelSeed
import Verif.ModelSend
import Verif.ModelServer
import Verif.ModelShare
import Verif.ModelSnip
import Verif.ModelStart
import Verif.ModelUpload
import Verif.ModelVar
import Verif.ModelView
import Verif.ModelXor
import Verif.PropsAdder
import Verif.PropsAfterFreq
import Verif.PropsArgs
import Verif.PropsCache
import Verif.PropsCheckPoint
import Verif.PropsCircuit
import Verif.PropsConnect
import Verif.PropsConstants
import Verif.PropsConvert
import Verif.PropsCorrelated
import Verif.PropsCut
import Verif.PropsDeploy
import Verif.PropsDouble
import Verif.PropsDrop
import Verif.PropsEnd
import Verif.PropsEndFreq
import Verif.PropsEndLin
import Verif.PropsEndVar
import Verif.PropsFft
import Verif.PropsFirst
import Verif.PropsFirstSnip
import Verif.PropsFirstXor
import Verif.PropsForge
import Verif.PropsFork
import Verif.PropsFreq
import Verif.PropsHe
import Verif.PropsInvalid
import Verif.PropsInvalidLin
import Verif.PropsInvalidVar
import Verif.PropsKeys
import Verif.PropsLinHonest
import Verif.PropsLinReg
import Verif.PropsMain
import Verif.PropsMax
import Verif.PropsMem
import Verif.PropsMemAll
import Verif.PropsMemClient
import Verif.PropsMemPre
import Verif.PropsMemTwice
import Verif.PropsNet
import Verif.PropsOt
import Verif.PropsPoly
import Verif.PropsPrint
import Verif.PropsPrintMain
import Verif.PropsProc
import Verif.PropsRecv
import Verif.PropsRobust
import Verif.PropsRobustSnip
import Verif.PropsRobustSound
import Verif.PropsSeed
import Verif.PropsSend
import Verif.PropsServer
import Verif.PropsShare
import Verif.PropsSnip
import Verif.PropsSolve
import Verif.PropsStale
import Verif.PropsStart
import Verif.PropsStop
import Verif.PropsStore
import Verif.PropsStray
import Verif.PropsStrayMore
import Verif.PropsTamper
import Verif.PropsUpload
import Verif.PropsVar
import Verif.PropsView
import Verif.PropsViewField
import Verif.PropsViewField1
import Verif.PropsViewFreq
import Verif.PropsViewHonest
import Verif.PropsViewLeak
import Verif.PropsViewLin
import Verif.PropsViewSession
import Verif.PropsViewVar
import Verif.PropsViewWords
import Verif.PropsViewXor
import Verif.PropsWidth
import Verif.PropsWidthFreq
import Verif.PropsXor
import Verif.PropsZk
import Verif.SpecVariance
