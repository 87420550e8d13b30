import Verif.Props.Strings
import Verif.Props.Registry
import Verif.Props.Config
import Verif.Props.Buffer
import Verif.Props.ChunkLock
import Verif.Props.Mpmc
import Verif.Props.Event
import Verif.Props.Export
import Verif.Props.TraceLog
import Verif.Props.TraceLogEvents
import Verif.Props.TraceLogFull
import Verif.Props.TraceLogNew
import Verif.Props.TraceLogStop
import Verif.Props.TraceLogStats
import Verif.Props.Guards
import Verif.Props.TracePoint
import Verif.Props.TraceLogRing
import Verif.Props.TraceLogMany
import Verif.Model.Weak
import Verif.Model.MpmcWeak
import Verif.Proof.Weak
import Verif.Proof.MpmcWeak
import Verif.Props.MpmcWeak
import Verif.Model.ChunkLockWeak
import Verif.Proof.ChunkLockWeak
import Verif.Props.ChunkLockWeak
import Verif.Model.RegistryWeak
import Verif.Proof.RegistryWeak
import Verif.Proof.RegistryWeakStep
import Verif.Props.RegistryWeak
import Verif.Model.TraceLogWeak
import Verif.Proof.TraceLogWeak
import Verif.Proof.TraceLogWeakCtl
import Verif.Proof.TraceLogWeakSpecial
import Verif.Proof.TraceLogWeakStep
import Verif.Proof.TraceLogWeakSafe
import Verif.Props.TraceLogWeak
import Verif.Model.Macros
import Verif.Props.Macros
import Verif.Props.EndToEnd
import Verif.Model.DynArray
import Verif.Props.DynArray
import Verif.Model.ConfigObject
import Verif.Props.ConfigObject
import Verif.Model.ThreadId
import Verif.Props.ThreadId
import Verif.Model.RelaxedAtomic
import Verif.Props.RelaxedAtomic
import Verif.Proof.TraceLogProgress
import Verif.Props.Progress
import Verif.Props.MpmcProgress
import Verif.Proof.RingShared
import Verif.Proof.TraceLogRingMany
import Verif.Props.TraceLogRingMany
import Verif.Props.IterStrict
import Verif.Props.TraceLogExn
import Verif.Props.Context
import Verif.Props.Whole
import Verif.Props.WholeRun
import Verif.Props.TraceLogDefined
import Verif.Props.ThreadEnd
import Verif.Props.GlobExact
import Verif.Props.ConfigExact
import Verif.Props.ChunkAny
import Verif.Props.QueueSize
import Verif.Props.Scopes
import Verif.Props.MpmcWrap
import Verif.Props.WholeEvents
import Verif.Props.EventIff
import Verif.Tests.Strings
import Verif.Tests.Traces
import Verif.Tests.Log
import Verif.Tests.Macros
import Verif.Props.LogLocked
import Verif.Props.RegistryLive
import Verif.Props.ConfigDefault
import Verif.Props.MacroExact
import Verif.Props.QueueWeak
import Verif.Props.LockLive
import Verif.Props.RegistrySc
import Verif.Props.WholeDocument
import Verif.Props.ExportExn
import Verif.Props.Format
import Verif.Props.CustomBuffer
import Verif.Props.Memory
import Verif.Props.Window
import Verif.Props.Nesting
import Verif.Model.Clock
import Verif.Props.Clock
import Verif.Props.Linear
import Verif.Props.Capacity
import Verif.Model.RingConc
import Verif.Proof.RingConc
import Verif.Props.RingConc
import Verif.Props.RingProgress
import Verif.Model.LogBuffer
import Verif.Proof.LogBuffer
import Verif.Proof.LogBufferPos
import Verif.Proof.LogBufferInv
import Verif.Props.LogBuffer
import Verif.Props.LogBufferStuck
import Verif.Proof.LogBufferFair
import Verif.Proof.LogBufferHeld
import Verif.Props.LogBufferFair
import Verif.Props.LogBufferJam
import Verif.Props.LogBufferKind
import Verif.Spec.LogBufferRefine
import Verif.Proof.LogBufferRefine
import Verif.Proof.LogBufferRefineLog
import Verif.Proof.LogBufferRefineBuf
import Verif.Proof.LogBufferRefineCall
import Verif.Proof.LogBufferRefineAccess
import Verif.Proof.LogBufferRefineStep
import Verif.Proof.LogBufferRefineNext
import Verif.Proof.LogBufferRefineMain
import Verif.Props.LogBufferRefine
import Verif.Proof.TraceLogStored
import Verif.Props.After
import Verif.Props.LogBufferAfter
import Verif.Props.StopWeak
import Verif.Props.TimeText
import Verif.Props.ChunksWeak
import Verif.Proof.TraceLogWeakWf
import Verif.Props.ProgressWeak
import Verif.Props.StartWeak
import Verif.Props.StopEndsWeak
import Verif.Props.LogBufferMore
import Verif.Props.StopFairWeak
import Verif.Model.TraceLogWeakLock
import Verif.Props.LocksWeak
import Verif.Props.LocksWeakRuns
import Verif.Props.LocksWeakProgress
import Verif.Props.LocksWeakFair
import Verif.Props.LocksWeakGiveUp
