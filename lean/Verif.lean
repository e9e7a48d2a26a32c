import Verif.Props.Util
import Verif.Props.Hist
import Verif.Props.Flame
import Verif.Props.Lbr
import Verif.Props.Kallsyms
import Verif.Props.Run
import Verif.Props.Cache
import Verif.Props.KSess
import Verif.Props.CcNum
import Verif.Props.CcFilter
import Verif.Props.CcAccess
import Verif.Spec.CcShape
import Verif.Props.CcTop
import Verif.Props.CcViolate
import Verif.Props.CcSaved
import Verif.Props.CcFold
import Verif.Props.CcDiv
import Verif.Props.CcFacts
import Verif.Props.CcFunc
import Verif.Props.FnArgs
import Verif.Props.OutArg
import Verif.Props.Flags
import Verif.Props.ProgSel
import Verif.Props.KfuncSel
import Verif.Props.Attach
import Verif.Props.Pkt
import Verif.Props.Asm
import Verif.Props.AsmSess
import Verif.Props.Graph
import Verif.Props.TailCall
import Verif.Props.Repr
import Verif.Props.Opts
import Verif.Props.KRead
import Verif.Props.Disasm
import Verif.Props.LineInfo
import Verif.Props.StackMap
import Verif.Props.LbrMap
import Verif.Props.Tp
import Verif.Props.Kmods
import Verif.Props.Traceable
import Verif.Props.Proto
import Verif.Props.FuncProto
import Verif.Props.CallTree
import Verif.Props.ReadData
import Verif.Props.Start
import Verif.Props.CcAccept
import Verif.Props.Line
import Verif.Props.DisProg
import Verif.Props.DbgFiles
import Verif.Props.ArgSel
import Verif.Props.ArgVal
import Verif.Props.GraphSel
import Verif.Props.OutText
import Verif.Props.ListText
import Verif.Props.ProtoList
import Verif.Props.GraphRun
import Verif.Props.SysText
import Verif.Props.Summary
import Verif.Props.FnText
import Verif.Props.Whole
import Verif.Props.InsnRun
import Verif.Props.Plan
import Verif.Props.Sid
import Verif.Props.Bg
import Verif.Props.LbrEv
import Verif.Props.Labels
import Verif.Props.PktInject
import Verif.Props.CmdLine
import Verif.Props.CcInit
import Verif.Props.Maps
import Verif.Props.SessConc
import Verif.Props.Refused
import Verif.Props.SidArm
import Verif.Props.StackConc
import Verif.Props.LocalTestRun
import Verif.Props.WholeDies
import Verif.Props.Consts
import Verif.Props.CcNew
import Verif.Props.DisSel
import Verif.Props.Links
import Verif.Props.MaxArg
import Verif.Props.Callees
import Verif.Props.GraphCode
