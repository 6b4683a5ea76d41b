import Verif.Range.Props
import Verif.SCC.Props
import Verif.CallGraph.Props
import Verif.Support.Label
import Verif.Support.Arena
import Verif.Support.IListProps
import Verif.MulConst.Props
import Verif.Layout.Props
import Verif.Frame.Alloc
import Verif.Frame.Prologue
import Verif.Runtime.ParFor
import Verif.Runtime.FutexProps
import Verif.Runtime.Tuner
import Verif.Runtime.Cache
import Verif.IR.Fold
import Verif.IR.RulesNsw
import Verif.IR.RangeReduce
import Verif.IR.ValueInSet
import Verif.IR.Reassociate
import Verif.Phi.Props
import Verif.Dom.Props
import Verif.SSA.Ex
import Verif.SSA.Verify
import Verif.SSA.Sub
import Verif.SSA.Cse
import Verif.SSA.PhiElim
import Verif.SSA.GvnProps
import Verif.Mir.RaProps
import Verif.Mir.Obs
import Verif.Mir.PeepProps
import Verif.Mir.SchedProps
import Verif.Mir.CfgProps
import Verif.Mir.CfgEx
import Verif.Mir.Bridge
import Verif.Isel.ConstProps
import Verif.Rvp.Ex
import Verif.Fe.Ex
import Verif.SSA.CutEx
import Verif.Fe.OptEx
import Verif.SSA.M2Main
import Verif.SSA.M2Done
import Verif.Fe.M2Ex
import Verif.SSA.FlowEx
import Verif.SSA.InlineEx
import Verif.SSA.SinkEx
import Verif.SSA.SortEx
import Verif.SSA.TailEx
import Verif.SSA.ReorderEx
import Verif.SSA.PhiMergeEx
import Verif.SSA.ToSelectEx
import Verif.SSA.CondPropEx
import Verif.SSA.SwitchEx
import Verif.SSA.IpoEx
import Verif.SSA.AttrEx
import Verif.SSA.StoreEx
import Verif.SSA.ScevEx
import Verif.SSA.LsrEx
import Verif.SSA.LoopElimEx
import Verif.SSA.LicmEx
import Verif.SSA.RangeAnaEx
import Verif.SSA.RangeCtxEx
import Verif.SSA.PtrAlignEx
import Verif.IR.SimpleValue
import Verif.IR.PtrBase
import Verif.IR.StoreOnly
