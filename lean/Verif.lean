import Verif.Props.Indexing
import Verif.Props.DM
import Verif.Props.View
import Verif.Props.Specfunc
import Verif.Props.Pauli
import Verif.Props.Coherent
import Verif.Props.Solve
import Verif.Props.SolveNeg
import Verif.Props.Order
import Verif.Props.Fock
import Verif.Props.Params
import Verif.Props.Spin
import Verif.Props.Rotate
import Verif.Props.Diag
import Verif.Props.SpinOps
import Verif.Props.ElPhSI
import Verif.Props.ElPh
import Verif.Props.Dephasing
import Verif.Props.RemoveCoh
import Verif.Props.States
import Verif.Props.ManyBody
import Verif.Props.Phi
import Verif.Props.Sorting
import Verif.Props.Validation
import Verif.Model.Neumann2
import Verif.Spec.LabelsC
import Verif.Props.ViewC
import Verif.Lemmas.Neumann2Kern
import Verif.Props.Neumann2Kern
import Verif.Lemmas.Neumann2Iter
import Verif.Props.Neumann2
import Verif.Lemmas.Neumann2Grid
import Verif.Props.Neumann2Grid
import Verif.Props.Neumann2Run
import Verif.Model.RTD
import Verif.Lemmas.RTD
import Verif.Lemmas.RTDCalls
import Verif.Lemmas.RTDOff
import Verif.Lemmas.RTDKern
import Verif.Lemmas.RTDRun
import Verif.Lemmas.RTDOut
import Verif.Lemmas.RTDVal
import Verif.Props.RTD
import Verif.Props.RTDMore
import Verif.Props.RTDCur
import Verif.Model.RTDObj
import Verif.Lemmas.RTDObj
import Verif.Props.RTDObj
import Verif.Props.RTDOzaki
import Verif.Lemmas.Congr
import Verif.Spec.Shift
import Verif.Props.Shift
import Verif.Model.RTDInt
import Verif.Props.ShiftRTD
import Verif.Spec.Basis
import Verif.Lemmas.Basis
import Verif.Props.Basis
import Verif.Props.BasisPauli
import Verif.Props.BasisDiag
import Verif.Spec.Phases
import Verif.Props.Phases
import Verif.Props.PhasesRTD
import Verif.Props.PhasesDiag
import Verif.Spec.Request
import Verif.Props.Request
import Verif.Props.RTDIntLimits
import Verif.Spec.Positive
import Verif.Lemmas.Positive
import Verif.Lemmas.PositiveDens
import Verif.Props.Positive
import Verif.Lemmas.DMLabelS
import Verif.Props.Multiplets
import Verif.Spec.SpinMult
import Verif.Lemmas.Symm
import Verif.Lemmas.SpinMult
import Verif.Lemmas.SpinDiag
import Verif.Lemmas.SpinBase
import Verif.Spec.SpinVec
import Verif.Lemmas.SpinEig
import Verif.Lemmas.SpinChain
import Verif.Lemmas.SpinStart
import Verif.Lemmas.SpinLoop
import Verif.Lemmas.MultipletKern
import Verif.Props.MultipletKern
import Verif.Lemmas.SpinTable
import Verif.Lemmas.PmtrSsq
import Verif.Props.RotateSsq
import Verif.Spec.SpinBasis
import Verif.Lemmas.DiagSsq
import Verif.Props.DiagSsq
import Verif.Lemmas.EighReal
import Verif.Lemmas.SpinComm
import Verif.Lemmas.SpinDict
import Verif.Props.SpinHam
import Verif.Props.DotSsq
import Verif.Lemmas.SpinTun
import Verif.Lemmas.TunSsq
import Verif.Props.SystemSsq
import Verif.Model.LeadPars
import Verif.Props.LeadPars
import Verif.Lemmas.EigStates
import Verif.Spec.SameIndexing
import Verif.Props.IndexingSame
import Verif.Spec.Integrals
import Verif.Lemmas.PV
import Verif.Props.Amplitudes
import Verif.Props.RTDCoh
import Verif.Props.RTDVN1
import Verif.Props.Holes
import Verif.Props.Hilbert
import Verif.Props.Ozaki
import Verif.Props.Polygamma
import Verif.Model.Neumann2Terms
import Verif.Spec.Neumann2
import Verif.Lemmas.Neumann2Terms
import Verif.Lemmas.Neumann2Mat
import Verif.Lemmas.Neumann2Lin
import Verif.Lemmas.Neumann2Eq
import Verif.Props.Neumann2Eq
import Verif.Props.Neumann2Level
import Verif.Props.Neumann2Pair
import Verif.Spec.Units
import Verif.Props.Units
import Verif.Spec.Merge
import Verif.Props.Merge
import Verif.Lemmas.Markov
import Verif.Spec.Hops
import Verif.Props.Unique
import Verif.Spec.Independent
import Verif.Lemmas.Product
import Verif.Props.Independent
import Verif.Spec.FreeElectrons
import Verif.Lemmas.FreeFermi
import Verif.Props.FreeElectrons
import Verif.Model.Compiled
import Verif.Model.Parallel
import Verif.Spec.Compiled
import Verif.Lemmas.Compiled
import Verif.Lemmas.CompiledTab
import Verif.Lemmas.CompiledCur
import Verif.Lemmas.Parallel
import Verif.Lemmas.CompiledRun
import Verif.Lemmas.CompiledKern
import Verif.Props.Compiled
import Verif.Model.CompiledElPh
import Verif.Lemmas.CompiledElPh
import Verif.Lemmas.CompiledElPhCoup
import Verif.Props.CompiledElPh
import Verif.Model.CompiledRTD
import Verif.Spec.CompiledRTD
import Verif.Lemmas.CompiledRTD
import Verif.Lemmas.CompiledRTDRun
import Verif.Lemmas.CompiledRTDExec
import Verif.Lemmas.CompiledRTDSum
import Verif.Lemmas.CompiledRTDEnd
import Verif.Props.CompiledRTD
import Verif.Model.CompiledNeumann2
import Verif.Lemmas.CompiledNeumann2
import Verif.Props.CompiledNeumann2
import Verif.Model.CompiledSpecfunc
import Verif.Lemmas.CompiledSpecfunc
import Verif.Props.CompiledSpecfunc
import Verif.Model.CompiledSolve
import Verif.Lemmas.CompiledSolve
import Verif.Props.CompiledSolve
import Verif.Model.FuncProp
import Verif.Props.FuncProp
