import Verif.Integer.Props
import Verif.RingBuf.Props
import Verif.RingBuffer.Props
import Verif.FixedMsgQueue.Props
import Verif.MsgQueue.Props
import Verif.AutoCover.Props
import Verif.Spsc.Props
import Verif.MsgSpsc.Props
import Verif.Hashmap.Props
import Verif.CList.Props
import Verif.Array.Props
import Verif.Base64.Props
import Verif.Url.Props
import Verif.Strings.Props
import Verif.StringBuilder.Props
import Verif.StrParams.Props
import Verif.Mplite.Props
import Verif.Mplite.Release
import Verif.Allocator.Props
import Verif.IniReader.Props
import Verif.IniParser.Props
import Verif.FileUtil.Props
import Verif.TimeUtil.Props
import Verif.MsgHandler.Props
import Verif.MsgHandler.Fair
import Verif.FixedSpsc.Props
import Verif.FixedHandler.Props
import Verif.FixedHandler.Fair
import Verif.Thpool.Props
import Verif.Thpool.FairProps
import Verif.Mcs.Props
import Verif.Mcs.Fair
import Verif.Rwlock.Props
import Verif.Rwlock.Fair
import Verif.Rwlock.Lazy
import Verif.Cond.Props
import Verif.Cond.Fair
import Verif.Cond.Start
import Verif.ThreadLife.Props
import Verif.ThreadLife.Fair
import Verif.Xlog.Props
import Verif.FileLogger.Props
import Verif.HashFn.Props
import Verif.TimeRfc.Props
import Verif.FileIter.Props
import Verif.WinSem.Props
import Verif.WinSem.Fair
import Verif.Tso.Props
import Verif.MsgTso.Props
import Verif.FixedTso.Props
import Verif.Slog.Props
import Verif.Portable.Props
import Verif.IniTyped.Props
import Verif.ThpoolPause.Props
import Verif.Dlfcn.Props
import Verif.XlogMt.Props
import Verif.XlogMt.Fair
import Verif.VersCmp.Props
import Verif.VersCmp.Num
import Verif.Dirent.Props
import Verif.Dirent.Use
import Verif.Dirent.ScanProps
import Verif.Dladdr.Props
import Verif.Dladdr.Use
import Verif.Global.Props
import Verif.Global.Conc
import Verif.StrDouble.Props
import Verif.StrDouble.Literal
import Verif.Clock.Props
import Verif.ThpoolInit.Props
import Verif.HandlerLife.Props
import Verif.ObjLife.Props
import Verif.ObjLife.Starts
import Verif.StrParamsOom.Props
import Verif.IniFile.Props
import Verif.AllocMt.Props
import Verif.AllocMt.Fair
import Verif.AutoCoverMt.Props
import Verif.HashmapMt.Props
import Verif.MpliteMt.Props
import Verif.MpliteMt.Demo
import Verif.MpliteMt.Fair
import Verif.IniHeap.Props
import Verif.IniHeap.Demo
import Verif.RingBufSpsc.Props
import Verif.RingBufTso.Props
import Verif.Zone.Props
import Verif.Asprintf.Props
import Verif.FileSize.Props
import Verif.FileLoggerMt.Props
import Verif.TimeMt.Props
import Verif.WinMutex.Props
import Verif.WinMutex.Fair
import Verif.WinMutex.Tso
import Verif.KeyHash.Props
import Verif.MpliteStats.Props
import Verif.ThreadName.Props
import Verif.LogFacade.Props
import Verif.LogFacade.Redirect
