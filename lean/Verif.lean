import Verif.Mem
import Verif.Base58.Lemmas
import Verif.Base58.Model
import Verif.Base58.Props
import Verif.Base58.Spec
import Verif.Base58Mem.Lemmas
import Verif.Base58Mem.Model
import Verif.Base58Mem.Props
import Verif.Base58Mem.Spec
import Verif.Base64.Lemmas
import Verif.Base64.Model
import Verif.Base64.Props
import Verif.Base64.Spec
import Verif.Cache.Lemmas
import Verif.Cache.Model
import Verif.Cache.Props
import Verif.Cache.Spec
import Verif.CacheMove.Lemmas
import Verif.CacheMove.Model
import Verif.CacheMove.Props
import Verif.CacheMove.Spec
import Verif.CacheRef.Frame
import Verif.CacheRef.Lemmas
import Verif.CacheRef.Model
import Verif.CacheRef.Props
import Verif.CacheThrow.Lemmas
import Verif.CacheThrow.Model
import Verif.CacheThrow.Props
import Verif.CacheThrow.Spec
import Verif.Capacity.Model
import Verif.Capacity.Props
import Verif.Capacity.Spec
import Verif.Daemon.Model
import Verif.Daemon.Props
import Verif.Dgram.Model
import Verif.Dgram.Props
import Verif.Fd.Model
import Verif.Fd.Props
import Verif.FileMap.Lemmas
import Verif.FileMap.Model
import Verif.FileMap.Props
import Verif.FileMap.Spec
import Verif.FreeIter.Model
import Verif.FreeIter.Props
import Verif.FreeIter.Spec
import Verif.FreeWords.Lemmas
import Verif.FreeWords.Model
import Verif.FreeWords.Props
import Verif.FreeWords.Sim
import Verif.FreeWords.Spec
import Verif.GetOpt.Lemmas
import Verif.GetOpt.Model
import Verif.GetOpt.Props
import Verif.GetOpt.Spec
import Verif.Gmtime.Lemmas
import Verif.Gmtime.Model
import Verif.Gmtime.Props
import Verif.Gmtime.Spec
import Verif.Inet.Lemmas
import Verif.Inet.Model
import Verif.Inet.Props
import Verif.Inet.Spec
import Verif.InetHost.Model
import Verif.InetHost.Props
import Verif.IpcRm.Lemmas
import Verif.IpcRm.Model
import Verif.IpcRm.Props
import Verif.IpcRm.Spec
import Verif.Keys.Lemmas
import Verif.Keys.Model
import Verif.Keys.Props
import Verif.Keys.Spec
import Verif.Load.Model
import Verif.Load.Props
import Verif.LogArray.Model
import Verif.LogArray.Props
import Verif.LogFile.Lemmas
import Verif.LogFile.Model
import Verif.LogFile.Props
import Verif.LogFile.Spec
import Verif.LogFile.Switch
import Verif.LogHist.Model
import Verif.LogHist.Props
import Verif.LogHist.Spec
import Verif.LogText.Lemmas
import Verif.LogText.Model
import Verif.LogText.Props
import Verif.LogText.Spec
import Verif.LogTrunc.Model
import Verif.LogTrunc.Props
import Verif.LogTrunc.Spec
import Verif.Logger.Model
import Verif.Logger.Props
import Verif.MapApi.Crash
import Verif.MapApi.Lemmas
import Verif.MapApi.Model
import Verif.MapApi.Props
import Verif.MapApi.Sim
import Verif.MapApi.Spec
import Verif.MapCopy.Model
import Verif.MapCopy.Props
import Verif.MapCopy.Spec
import Verif.MapFree.Model
import Verif.MapFree.More
import Verif.MapFree.Props
import Verif.MapFree.Spec
import Verif.MapIter.Grow
import Verif.MapIter.GrowIt
import Verif.MapIter.GrowProps
import Verif.MapIter.GrowSys
import Verif.MapIter.Model
import Verif.MapIter.Props
import Verif.MapNest.Lemmas
import Verif.MapNest.Model
import Verif.MapNest.Props
import Verif.MapNest.Spec
import Verif.MapPeek.Bounds
import Verif.MapPeek.Model
import Verif.MapPeek.Props
import Verif.MapPeek.Spec
import Verif.MapSweep.Lemmas
import Verif.MapSweep.Model
import Verif.MapSweep.Props
import Verif.MapSweep.Spec
import Verif.MapSys.Model
import Verif.MapSys.Path
import Verif.MapSys.Progress
import Verif.MapSys.Props
import Verif.MapSys.Readers
import Verif.MapSys.Refine
import Verif.MapSys.Sections
import Verif.MapSys.Sim
import Verif.MapSys.Spec
import Verif.MapThreads.Lemmas
import Verif.MapThreads.Model
import Verif.MapThreads.Props
import Verif.MapThreads.Spec
import Verif.MapThrow.Lemmas
import Verif.MapThrow.Model
import Verif.MapThrow.Props
import Verif.MapThrow.Spec
import Verif.MapTorn.Lemmas
import Verif.MapTorn.Model
import Verif.MapTorn.Props
import Verif.MapTorn.Spec
import Verif.MapWeak.Lemmas
import Verif.MapWeak.Model
import Verif.MapWeak.Props
import Verif.MapWeak.Spec
import Verif.MapWords.Lemmas
import Verif.MapWords.Model
import Verif.MapWords.Props
import Verif.MkTree.Model
import Verif.MkTree.Props
import Verif.Mkpath.Model
import Verif.Mkpath.Props
import Verif.Mkpath.Spec
import Verif.Params.Lemmas
import Verif.Params.Model
import Verif.Params.Props
import Verif.Params.Spec
import Verif.PidRm.Model
import Verif.PidRm.Props
import Verif.Pidfile.Lemmas
import Verif.Pidfile.Model
import Verif.Pidfile.Props
import Verif.PoolSys.Lemmas
import Verif.PoolSys.Model
import Verif.PoolSys.Props
import Verif.PoolSys.Spec
import Verif.QueueApi.Lemmas
import Verif.QueueApi.Model
import Verif.QueueApi.Props
import Verif.QueueApi.Spec
import Verif.QueueCopy.Lemmas
import Verif.QueueCopy.Model
import Verif.QueueCopy.Props
import Verif.QueueCopy.Spec
import Verif.QueueFork.Model
import Verif.QueueFork.Props
import Verif.QueueFork.Spec
import Verif.QueueKill.Lemmas
import Verif.QueueKill.Model
import Verif.QueueKill.PhaseLemmas
import Verif.QueueKill.PhaseProps
import Verif.QueueKill.PhaseSpec
import Verif.QueueKill.Props
import Verif.QueueKill.Spec
import Verif.QueueMake.Lemmas
import Verif.QueueMake.Model
import Verif.QueueMake.Props
import Verif.QueueMake.Spec
import Verif.QueueMsg.Lemmas
import Verif.QueueMsg.Model
import Verif.QueueMsg.Props
import Verif.QueueMsg.Spec
import Verif.QueueOpt.Dead
import Verif.QueueOpt.Lemmas
import Verif.QueueOpt.Model
import Verif.QueueOpt.Props
import Verif.QueueOpt.Spec
import Verif.QueueRegs.Model
import Verif.QueueRegs.Props
import Verif.QueueRegs.Spec
import Verif.QueueSegRm.Lemmas
import Verif.QueueSegRm.Model
import Verif.QueueSegRm.Props
import Verif.QueueSegRm.Spec
import Verif.QueueThreads.Lemmas
import Verif.QueueThreads.Model
import Verif.QueueThreads.Props
import Verif.QueueThreads.Spec
import Verif.QueueVar.Lemmas
import Verif.QueueVar.Model
import Verif.QueueVar.Props
import Verif.QueueVar.Spec
import Verif.QueueWeak.Lemmas
import Verif.QueueWeak.Model
import Verif.QueueWeak.Props
import Verif.QueueWeak.Spec
import Verif.RandomSys.Lemmas
import Verif.RandomSys.Model
import Verif.RandomSys.Props
import Verif.RandomSys.Spec
import Verif.RepoTests
import Verif.RwLock.Intr
import Verif.RwLock.Lemmas
import Verif.RwLock.Model
import Verif.RwLock.Props
import Verif.SegRm.Lemmas
import Verif.SegRm.Model
import Verif.SegRm.Props
import Verif.SegRm.Spec
import Verif.SerFail.Model
import Verif.SerFail.Props
import Verif.SerFail.Spec
import Verif.ShmMap.Lemmas
import Verif.ShmMap.Model
import Verif.ShmMap.Props
import Verif.ShmMap.Spec
import Verif.ShmPool.Lemmas
import Verif.ShmPool.Model
import Verif.ShmPool.Props
import Verif.ShmPool.Spec
import Verif.ShmQueue.Box
import Verif.ShmQueue.BoxProps
import Verif.ShmQueue.Lemmas
import Verif.ShmQueue.Model
import Verif.ShmQueue.Props
import Verif.ShmQueue.Solo
import Verif.ShmQueue.Spec
import Verif.ShmQueue.Trace
import Verif.SigLog.Model
import Verif.SigLog.Props
import Verif.SigLog.Spec
import Verif.SigProc.Lemmas
import Verif.SigProc.Model
import Verif.SigProc.Props
import Verif.SigProc.Spec
import Verif.Sleep.Model
import Verif.Sleep.Props
import Verif.Str.Lemmas
import Verif.Str.Model
import Verif.Str.Props
import Verif.Str.Spec
import Verif.StrCpp.Lemmas
import Verif.StrCpp.Model
import Verif.StrCpp.Props
import Verif.StrCpp.Spec
import Verif.StrHeap.Lemmas
import Verif.StrHeap.Model
import Verif.StrHeap.Props
import Verif.StrStore.Good
import Verif.StrStore.Hist
import Verif.StrStore.Inv
import Verif.StrStore.Look
import Verif.StrStore.Mem
import Verif.StrStore.Model
import Verif.StrStore.Props
import Verif.StrStore.Pure
import Verif.StrStore.Refine
import Verif.StrStore.Spec
import Verif.Stream.Lemmas
import Verif.Stream.Model
import Verif.Stream.Props
import Verif.Synque.Lemmas
import Verif.Synque.Many
import Verif.Synque.Model
import Verif.Synque.More
import Verif.Synque.Props
import Verif.Synque.Spec
import Verif.Synque.Wake
import Verif.SynqueCancel.Lemmas
import Verif.SynqueCancel.Model
import Verif.SynqueCancel.Props
import Verif.ThrowMany.Model
import Verif.ThrowMany.Props
import Verif.ThrowMany.Spec
import Verif.Txml.Conv
import Verif.Txml.ConvLemmas
import Verif.Txml.ConvSpec
import Verif.Txml.Lemmas
import Verif.Txml.Load
import Verif.Txml.Model
import Verif.Txml.Props
import Verif.Txml.Spec
import Verif.Url.EscLemmas
import Verif.Url.ExactLemmas
import Verif.Url.ExactProps
import Verif.Url.ExactSpec
import Verif.Url.Lemmas
import Verif.Url.Model
import Verif.Url.PreProps
import Verif.Url.Props
import Verif.Url.Spec
import Verif.Url.UnescLemmas
import Verif.Url.UnescProps
import Verif.Url.UnescSpec
import Verif.UrlMem.Model
import Verif.UrlMem.Props
import Verif.UrlMem.Spec
import Verif.UrlParser.Copy
import Verif.UrlParser.Create
import Verif.UrlParser.Host
import Verif.UrlParser.Model
import Verif.UrlParser.Norm
import Verif.UrlParser.Path
import Verif.UrlParser.Props
import Verif.UrlParser.Spec
import Verif.UrlWide.Model
import Verif.UrlWide.Props
import Verif.UrlWide.Spec
import Verif.VarBox.Model
import Verif.VarBox.Props
import Verif.Vietnam.Lemmas
import Verif.Vietnam.Model
import Verif.Vietnam.Props
import Verif.Vietnam.Spec
import Verif.WeakFree.Model
import Verif.WeakFree.Props
import Verif.WeakFree.Refute
import Verif.WeakFree.Spec
import Verif.WeakIter.Model
import Verif.WeakIter.Props
import Verif.WeakIter.Spec
import Verif.WeakPeek.Bounds
import Verif.WeakPeek.Model
import Verif.WeakPeek.Props
import Verif.WeakPeek.Spec
import Verif.XmlFloat.Lemmas
import Verif.XmlFloat.Model
import Verif.XmlFloat.Props
import Verif.XmlFloat.Spec
