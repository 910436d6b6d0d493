import Verif.Queue.Props
import Verif.MathUtils.Props
import Verif.Array.Props
import Verif.Pipe.Props
import Verif.FastList.Props
import Verif.PriorityQueue.Props
import Verif.FrontArray.Props
import Verif.DAG.Props
import Verif.Scheduler.Props
import Verif.Cache.Props
import Verif.Buffer.Props
import Verif.BitArray.Props
import Verif.Rational.Props
import Verif.Values.Props
import Verif.ByteOrder.Props
import Verif.Strings.Props
import Verif.Lexical.Props
import Verif.Tag.Props
import Verif.TieredMap.Props
import Verif.SharedPtr.Props
import Verif.CircularBuffer.Props
import Verif.SharedData.Props
import Verif.Scoreboard.Props
import Verif.Pipeline.Props
import Verif.Pipeline.PrecedenceProps
import Verif.ArchData.Props
import Verif.ArchData.LayoutProps
import Verif.Checkpoint.Props
import Verif.PayloadEvent.Props
import Verif.Clock.Props
import Verif.SyncPort.Props2
import Verif.Register.Props
import Verif.MemoryMap.Props
import Verif.MemIf.Props
import Verif.CachedMem.Props
import Verif.Counter.Props
import Verif.Histogram.Props
import Verif.DataPort.Props
import Verif.PTree.Props
import Verif.Notify.Props
import Verif.TrigMan.Props
import Verif.CycTrig.Props
import Verif.TNode.Props
import Verif.Param.Props
import Verif.Stat.Props
import Verif.Collect.Props
import Verif.STimer.Props
import Verif.StateM.Props
import Verif.UniqEv.Props
import Verif.TFilter.Props
import Verif.Cherry.Props
import Verif.Argos.Props
import Verif.RegView.Props
import Verif.PFile.Props
import Verif.DView.Props
import Verif.BHist.Props
import Verif.SigPort.Props
import Verif.Intern.Props
import Verif.StHist.Props
import Verif.EnumT.Props
import Verif.CtxCounter.Props
import Verif.GOP.Props
import Verif.Backoff.Props
import Verif.RegBank.Props
import Verif.Bus.Props
import Verif.ExPort.Props
