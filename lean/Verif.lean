import Verif.Basic
import Verif.Spec.Selector
import Verif.Model.Fifo
import Verif.Model.Uniform
import Verif.Model.Heap
import Verif.Model.Prioritized
import Verif.Model.Selector
import Verif.Proofs.ListSel
import Verif.Proofs.Uniform
import Verif.Proofs.Heap
import Verif.Proofs.HeapSel
import Verif.Proofs.Prio
import Verif.Proofs.PrioWalk
import Verif.Proofs.PrioSel
import Verif.Proofs.Sel
import Verif.Props.C01_C02_ListSel
import Verif.Props.C03_Uniform
import Verif.Props.C04_Heap
import Verif.Props.C05_Prioritized
import Verif.Props.C06_SelectorErrors
import Verif.Model.Limiter
import Verif.Model.Trajectory
import Verif.Model.Table
import Verif.Spec.TableLog
import Verif.Spec.Reach
import Verif.Proofs.TableCore
import Verif.Proofs.TableMoves
import Verif.Proofs.TableLog
import Verif.Proofs.TableSamples
import Verif.Proofs.TableReach
import Verif.Model.PyLimiters
import Verif.Spec.Queue
import Verif.Proofs.QueueTable
import Verif.Props.TableDemo
import Verif.Props.C07_C08_RateLimit
import Verif.Props.C09_NoDeadlock
import Verif.Props.C10_C11_Queue
import Verif.Props.C12_C13_C14_Contents
import Verif.Props.C15_C16_C20_Samples
import Verif.Props.C17_C18_Updates
import Verif.Props.C19_C21_C54_Accounting
import Verif.Props.C24_Errors
import Verif.Proofs.SelEquiv
import Verif.Proofs.TableTwin
import Verif.Proofs.TableLoose
import Verif.Props.C22_Reset
import Verif.Model.Checkpoint
import Verif.Spec.Choice
import Verif.Proofs.Choice
import Verif.Proofs.Checkpoint
import Verif.Props.C23_Checkpoint
import Verif.Props.C30_C31_Trajectories
import Verif.Model.Worker
import Verif.Spec.Worker
import Verif.Proofs.Worker
import Verif.Proofs.WorkerInv
import Verif.Proofs.WorkerLive
import Verif.Proofs.WorkerProgress
import Verif.Proofs.WorkerBound
import Verif.Props.C25_C29_Worker
import Verif.Model.Waiters
import Verif.Proofs.Waiters
import Verif.Props.C62_Waiters
import Verif.Model.Stats
import Verif.Spec.Stats
import Verif.Proofs.Stats
import Verif.Props.C53_Stats
import Verif.Model.Queues
import Verif.Spec.Queues
import Verif.Proofs.Queues
import Verif.Props.C47_C48_Queues
import Verif.Model.Executor
import Verif.Spec.Executor
import Verif.Proofs.Executor
import Verif.Props.C59_Executor
import Verif.Model.Tensor
import Verif.Proofs.Tensor
import Verif.Props.C32_Delta
import Verif.Model.ChunkStore
import Verif.Spec.ChunkStore
import Verif.Proofs.ChunkStore
import Verif.Props.C49_ChunkStore
import Verif.Model.CkptFiles
import Verif.Spec.CkptFiles
import Verif.Proofs.CkptFiles
import Verif.Props.C50_C51_Checkpointer
import Verif.Model.ChunkData
import Verif.Spec.Rows
import Verif.Proofs.Rows
import Verif.Model.Chunker
import Verif.Spec.Chunker
import Verif.Proofs.ChunkerOpts
import Verif.Proofs.Chunker
import Verif.Proofs.ChunkerHist
import Verif.Props.C34_C36_Chunker
import Verif.Model.Sample
import Verif.Spec.Sample
import Verif.Proofs.Sample
import Verif.Proofs.SampleIter
import Verif.Proofs.SampleData
import Verif.Props.C44_C46_Sample
import Verif.Model.TensorSpec
import Verif.Model.TrajWriter
import Verif.Model.InsertStream
import Verif.Spec.TrajWriter
import Verif.Proofs.ChunkerUsed
import Verif.Proofs.TrajCols
import Verif.Proofs.TrajBase
import Verif.Proofs.InsertCache
import Verif.Proofs.TrajQueue
import Verif.Proofs.TrajHandle
import Verif.Proofs.TrajStream
import Verif.Proofs.TrajRun
import Verif.Proofs.TrajLost
import Verif.Proofs.TrajDrain
import Verif.Props.TrajDemo
import Verif.Props.C38_C40_TrajStreams
import Verif.Props.C41_Resend
import Verif.Proofs.TrajOpts
import Verif.Props.C37_Options
import Verif.Proofs.TrajMerge
import Verif.Props.C33_Columns
import Verif.Model.InsertReq
import Verif.Model.InsertSync
import Verif.Model.InsertAsync
import Verif.Spec.InsertService
import Verif.Proofs.TableGrow
import Verif.Proofs.InsertSync
import Verif.Proofs.InsertSyncAll
import Verif.Proofs.InsertAsync
import Verif.Props.C56_C57_InsertService
import Verif.Model.SampleReq
import Verif.Model.SampleSync
import Verif.Spec.SampleService
import Verif.Proofs.TableValid
import Verif.Proofs.TableBatch
import Verif.Proofs.SampleSync
import Verif.Props.C55_C58_SampleSync
import Verif.Model.SampleAsync
import Verif.Model.Timeout
import Verif.Spec.SampleAsync
import Verif.Proofs.SampleTable
import Verif.Proofs.SampReactor
import Verif.Proofs.SampleAsync
import Verif.Proofs.SampleShare
import Verif.Props.C55_C58_C66_C67_SampleAsync
import Verif.Model.ClientSampler
import Verif.Spec.ClientSampler
import Verif.Proofs.ClientSampler
import Verif.Proofs.ClientSamplerLive
import Verif.Proofs.ClientSamplerLog
import Verif.Proofs.SampleCodes
import Verif.Proofs.ClientSamplerRun
import Verif.Proofs.ClientSamplerTime
import Verif.Model.NewSampler
import Verif.Spec.OutputSpec
import Verif.Props.C45_C68_ClientSampler
import Verif.Props.C61_C70_OutputSpec
import Verif.Proofs.ClientSamplerFlow
import Verif.Spec.SampleOrder
import Verif.Props.C58_LocalSampler
import Verif.Props.C69_SampleOrder
import Verif.Model.Writer
import Verif.Spec.Writer
import Verif.Proofs.WriterStream
import Verif.Proofs.WriterData
import Verif.Proofs.WriterInv
import Verif.Proofs.WriterRun
import Verif.Proofs.WriterCore
import Verif.Proofs.WriterFull
import Verif.Proofs.WriterFlow
import Verif.Proofs.WriterKept
import Verif.Proofs.WriterSig
import Verif.Props.C42_Writer
import Verif.Props.C43_Writer
import Verif.Props.C71_C74_Writer
import Verif.Model.Signature
import Verif.Spec.Signature
import Verif.Proofs.Signature
import Verif.Props.C52_Signature
import Verif.Model.Extensions
import Verif.Spec.Extensions
import Verif.Proofs.ExtProg
import Verif.Proofs.Ext
import Verif.Proofs.ExtCalls
import Verif.Proofs.ExtMore
import Verif.Props.C60_Extensions
import Verif.Proofs.WriterRange
import Verif.Proofs.WriterRetry
import Verif.Proofs.WriterAgain
import Verif.Props.C77_C78_Writer
import Verif.Model.PyTree
import Verif.Model.PyWriter
import Verif.Spec.PyWriter
import Verif.Proofs.PyTree
import Verif.Proofs.PyUnion
import Verif.Proofs.PyWriter
import Verif.Proofs.TrajClock
import Verif.Proofs.PyHistory
import Verif.Proofs.PyRun
import Verif.Proofs.PyRead
import Verif.Proofs.PyKinds
import Verif.Proofs.PyGrow
import Verif.Props.C79_C81_PyWriter
import Verif.Props.C82_C83_PyWriter
import Verif.Model.Dataset
import Verif.Spec.Dataset
import Verif.Proofs.Dataset
import Verif.Proofs.DatasetInv
import Verif.Proofs.DatasetRun
import Verif.Proofs.DatasetCause
import Verif.Proofs.DatasetLater
import Verif.Proofs.DatasetCancel
import Verif.Props.C84_C88_Dataset
import Verif.Proofs.TableOrigin
import Verif.Model.Service
import Verif.Spec.Service
import Verif.Proofs.Service
import Verif.Spec.EndToEnd
import Verif.Proofs.Links
import Verif.Proofs.TrajSent
import Verif.Props.C89_EndToEnd
import Verif.Spec.Isolation
import Verif.Proofs.Isolation
import Verif.Props.C90_Isolation
import Verif.Model.ClientOps
import Verif.Spec.ClientOps
import Verif.Proofs.ClientOps
import Verif.Props.C91_C92_Mutate
import Verif.Proofs.ClientInsert
import Verif.Props.C93_Insert
import Verif.Model.Handshake
import Verif.Spec.Handshake
import Verif.Proofs.Handshake
import Verif.Props.C94_Handshake
import Verif.Model.Status
import Verif.Spec.Status
import Verif.Props.C95_Status
import Verif.Model.ServerLife
import Verif.Spec.ServerLife
import Verif.Proofs.ServerLife
import Verif.Props.C96_C97_Server
import Verif.Model.ServerCkpt
import Verif.Spec.ServerCkpt
import Verif.Proofs.ServerCkpt
import Verif.Props.C98_ServerCkpt
import Verif.Model.SigCache
import Verif.Spec.SigCache
import Verif.Proofs.SigCache
import Verif.Props.C99_SigCache
import Verif.Spec.EndToEndSteps
import Verif.Props.C100_Steps
import Verif.Model.Objects
import Verif.Spec.Objects
import Verif.Proofs.Objects
import Verif.Proofs.ObjectsFrame
import Verif.Proofs.ObjectsWorld
import Verif.Proofs.ObjectsApart
import Verif.Proofs.ObjectsMore
import Verif.Props.C101_Objects
import Verif.Model.PySample
import Verif.Spec.PySample
import Verif.Proofs.PySample
import Verif.Props.C102_PySample
import Verif.Model.PyDataset
import Verif.Spec.PyDataset
import Verif.Proofs.PyDataset
import Verif.Props.C103_PyDataset
import Verif.Model.Compression
import Verif.Spec.Compression
import Verif.Proofs.Compression
import Verif.Props.C104_Compression
import Verif.Spec.Release
import Verif.Proofs.Release
import Verif.Props.C105_Release
import Verif.Model.Dbl
import Verif.Model.DPrio
import Verif.Spec.DPrio
import Verif.Proofs.Dbl
import Verif.Proofs.DPrio
import Verif.Proofs.DPrioExact
import Verif.Props.C106_PrioDouble
import Verif.Proofs.DblNear
import Verif.Proofs.DPrioDrift
import Verif.Proofs.DPrioHist
import Verif.Proofs.DPrioWalk
import Verif.Proofs.DPrioClose
import Verif.Props.C106_Close
import Verif.Model.DLimiter
import Verif.Spec.DLimiter
import Verif.Proofs.DLimiter
import Verif.Props.C107_LimiterDouble
import Verif.Model.Info
import Verif.Spec.Info
import Verif.Proofs.Info
import Verif.Props.C108_Info
import Verif.Model.TFClient
import Verif.Spec.TFClient
import Verif.Proofs.TFClient
import Verif.Props.C109_TFSample
import Verif.Spec.Tuner
import Verif.Proofs.Tuner
import Verif.Props.C110_Tuner
import Verif.Spec.TrajSig
import Verif.Proofs.TrajSig
import Verif.Props.C111_TrajSig
import Verif.Model.AsyncService
import Verif.Spec.AsyncService
import Verif.Proofs.EndToEnd
import Verif.Proofs.EndToEndSteps
import Verif.Proofs.WorkerOrigin
import Verif.Proofs.AsyncService
import Verif.Props.C89_Async
import Verif.Spec.QueueService
import Verif.Proofs.QueueService
import Verif.Props.C112_Queue
import Verif.Spec.QueueWorker
import Verif.Proofs.QueueWorker
import Verif.Proofs.QueueHanded
import Verif.Spec.QueueAsync
import Verif.Proofs.QueueGave
import Verif.Proofs.QueueAsync
import Verif.Props.C112_Async
import Verif.Model.TFInsert
import Verif.Spec.TFInsert
import Verif.Props.C113_TFInsert
import Verif.Spec.FailedAppend
import Verif.Proofs.FailedAppend
import Verif.Props.C114_FailedAppend
import Verif.Spec.Refused
import Verif.Proofs.Refused
import Verif.Props.C115_Refused
import Verif.Spec.GivenTwice
import Verif.Proofs.GivenTwice
import Verif.Props.C116_GivenTwice
import Verif.Spec.Life
import Verif.Proofs.Life
import Verif.Props.C117_Life
import Verif.Model.Wiring
import Verif.Spec.Wiring
import Verif.Proofs.LogGrows
import Verif.Proofs.Wiring
import Verif.Props.C118_Wiring
import Verif.Proofs.SamplerDrop
import Verif.Props.C119_SamplerDrop
import Verif.Model.TaskWorker
import Verif.Spec.TaskWorker
import Verif.Proofs.TaskWorker
import Verif.Proofs.TaskWorkerCheck
import Verif.Props.C120_TaskWorker
import Verif.Model.SharedStore
import Verif.Spec.SharedStore
import Verif.Proofs.SharedStore
import Verif.Props.C121_SharedStore
import Verif.Model.NdArray
import Verif.Spec.NdArray
import Verif.Proofs.NdArray
import Verif.Props.C122_NdArray
import Verif.Model.Gil
import Verif.Spec.Gil
import Verif.Proofs.Gil
import Verif.Props.C123_Gil
import Verif.Model.OptsEq
import Verif.Props.C124_OptsEq
