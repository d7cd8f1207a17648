import Verif.Depdb.Props
import Verif.Update.Props
import Verif.TargetState.Props
import Verif.Action.Props
import Verif.FileCache.Props
import Verif.TaskQueue.Props
import Verif.WaitSlot.Props
import Verif.Active.Props
import Verif.PhaseMutex.Props
import Verif.OpState.Props
import Verif.Cycle.Props
import Verif.OutOfDate.Props
import Verif.Group.Props
import Verif.ModMap.Props
import Verif.ModScan.Props
import Verif.Name.Props
import Verif.Quote.Props
import Verif.Make.Props
import Verif.RulePat.Props
import Verif.ScopeMap.Props
import Verif.Lookup.Props
import Verif.Override.Props
import Verif.VarCache.Props
import Verif.VarPattern.Props
import Verif.Function.Props
import Verif.Json.Props
import Verif.Install.Props
import Verif.Integer.Props
import Verif.Value.Props
import Verif.TargetSet.Props
import Verif.TestSel.Props
import Verif.Recipe.Props
import Verif.RuleMatch.Props
import Verif.Cleanup.Props
import Verif.CompileDb.Props
import Verif.ConfigSave.Props
import Verif.ScriptFlow.Props
import Verif.ScriptExpr.Props
import Verif.Eval.Props
import Verif.BuildFlow.Props
import Verif.BuildSpec.Props
import Verif.NamePat.Props
import Verif.LinkOrder.Props
import Verif.CcLex.Props
import Verif.Headers.Props
import Verif.InSubst.Props
import Verif.NameGroup.Props
import Verif.Timeout.Props
import Verif.Clean.Props
import Verif.Flow.Props
import Verif.SetRead.Props
import Verif.Search.Props
import Verif.TestExec.Props
import Verif.PrefixMap.Props
import Verif.VersionCond.Props
import Verif.DiagBuf.Props
import Verif.VarPool.Props
import Verif.Include.Props
import Verif.Modules.Props
import Verif.Import.Props
import Verif.Amalgam.Props
import Verif.Dist.Props
import Verif.Backlink.Props
import Verif.Disfigure.Props
import Verif.Configure.Props
import Verif.StrFn.Props
import Verif.ListFn.Props
import Verif.NameFilter.Props
import Verif.RegexFn.Props
