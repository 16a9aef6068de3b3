import Verif.Props.Bits
import Verif.Props.SD
import Verif.Props.Strings
import Verif.Props.Ham
import Verif.Props.HamCsr
import Verif.Props.Dist
import Verif.Props.SpBlas
import Verif.Props.PSpmv
import Verif.Props.SpConv
import Verif.Props.SpUtil
import Verif.Props.SpTri
import Verif.Props.Permute
import Verif.Props.Residues
import Verif.Props.Rdm
import Verif.Props.Constraint
import Verif.Props.AsciSelect
import Verif.Props.AsciDrive
import Verif.Props.Davidson
import Verif.Props.WfnIO
import Verif.Props.Fcidump
import Verif.Props.RdmBin
import Verif.Props.Transform
import Verif.Props.Fock
import Verif.Props.OrbRot
import Verif.Props.Diis
import Verif.Props.OrbGrad
import Verif.Props.OrbHess
import Verif.Props.Mcscf
import Verif.Props.SpIO
import Verif.Props.SpinGen
import Verif.Props.SpGraph
import Verif.Props.AsciContrib
import Verif.Props.AsciDist
import Verif.Props.Mcscf2
import Verif.Props.DiagHess
import Verif.Props.Bfgs
import Verif.Props.LineSearch
import Verif.Props.Mp2
import Verif.Props.Casci
import Verif.Props.Lobpcg
import Verif.Props.Frozen
import Verif.Props.NumDeriv
import Verif.Props.NumHess
import Verif.Props.Ini
import Verif.Props.MpiSpmv
import Verif.Props.MpiFile
import Verif.Props.MpiQuick
import Verif.Props.Omp
import Verif.Props.MpiSearch
import Verif.Props.MpiWrap
import Verif.Props.Rotate
import Verif.Props.CutInts
import Verif.Props.Driver
import Verif.Props.CutSearch
import Verif.Props.RdmSym
import Verif.Props.DriverMcscf
import Verif.Props.Exact
import Verif.Props.ExactMc
import Verif.Props.ExactIO
import Verif.Props.ExactDump
import Verif.Props.ExactHess
import Verif.Props.ExactIni
import Verif.Props.OmpCell
import Verif.Props.Reorder
import Verif.Props.MpiDav
import Verif.Props.MpiIter
import Verif.Props.MpiIterExample
import Verif.Props.LogFile
import Verif.Props.Narrow
import Verif.Props.MpiDriver
import Verif.Props.MpiDriverExample
import Verif.Props.Keywords
import Verif.Props.KeywordsExample
import Verif.Props.DriverPrint
import Verif.Props.DriverPrintEx
import Verif.Props.RoundHam
import Verif.Props.RoundSpmv
import Verif.Props.RoundDiag
import Verif.Props.RdmExact
import Verif.Props.ExactForms
import Verif.Props.RoundPSpmv
import Verif.Props.RoundRdm
import Verif.Props.RoundScore
import Verif.Props.ExactMore
import Verif.Props.Decimal
import Verif.Props.DecimalGen
import Verif.Props.Numeral
import Verif.Props.ExactMp2
import Verif.Props.NumeralInput
import Verif.Props.ExactMM
import Verif.Props.RoundTransform
import Verif.Props.RoundFock
import Verif.Props.HamGen
