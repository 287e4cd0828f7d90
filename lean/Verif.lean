import Verif.Spec.Resource
import Verif.Spec.Family
import Verif.Spec.History
import Verif.Lemmas.Tactics
import Verif.Lemmas.Resource
import Verif.Lemmas.History
import Verif.Props.C01_C02_Contiguous
import Verif.Props.C03_C06_Pool
import Verif.Props.C07_C09_BinaryPage
import Verif.Props.C10_C12_Arena
import Verif.Props.C13_Debug
import Verif.Props.C14_C15_Routing
import Verif.Props.C16_C17_Forwarding
import Verif.Props.C18_Instrumenting
import Verif.Props.C19_Monitor
import Verif.Props.C20_Synchronized
import Verif.Props.C21_Conventions
import Verif.Props.C22_Host
import Verif.Props.C23_IntMath
import Verif.Props.C24_IsAligned
import Verif.Props.C25_Stacks
import Verif.Props.C26_C28_Buffers
import Verif.Props.C36_C49_Owners
import Verif.Props.C29_C31_DeviceVector
import Verif.Props.C32_C33_StaticVector
import Verif.Props.C34_Arrays
import Verif.Props.C35_Jagged
import Verif.Props.C37_Copy
import Verif.Props.C38_C40_CopyJagged
import Verif.Props.C41_AsyncCopy
import Verif.Props.C42_EdmBuffer
import Verif.Props.C44_EdmCopy
import Verif.Props.C44_ToHost
import Verif.Props.C44_FromHost
import Verif.Props.C40_EdmSetup
import Verif.Props.C43_EdmHost
import Verif.Props.C45_EdmDevice
import Verif.Props.C46_C47_Atomics
import Verif.Props.C48_Devices
import Verif.Props.C50_Equality
import Verif.Spec.World
import Verif.Lemmas.Kinds
import Verif.Lemmas.World
import Verif.Props.C55_Programs
import Verif.Model.Handles
import Verif.Spec.Handles
import Verif.Lemmas.Handles
import Verif.Props.C56_Moves
import Verif.Model.Streams
import Verif.Spec.Streams
import Verif.Lemmas.Streams
import Verif.Lemmas.Queues
import Verif.Props.C57_Wrappers
import Verif.Model.HostCopy
import Verif.Spec.SyclCopy
import Verif.Lemmas.SyclCopy
import Verif.Lemmas.SyclCopySafe
import Verif.Lemmas.SyclCopyJagged
import Verif.Lemmas.SyclCopyUser
import Verif.Lemmas.AsyncCopyUser
import Verif.Props.C41_Waits
import Verif.Spec.GpuMemory
import Verif.Model.GpuMemory
import Verif.Lemmas.GpuMemory
import Verif.Lemmas.GpuPrograms
import Verif.Lemmas.GpuWorlds
import Verif.Props.C58_GpuMemory
import Verif.Model.Pipeline
import Verif.Spec.Pipeline
import Verif.Lemmas.PipelineKernel
import Verif.Lemmas.Pipeline
import Verif.Lemmas.PipelineSteps
import Verif.Props.C59_Pipelines
import Verif.Spec.Threads
import Verif.Lemmas.Threads
import Verif.Props.C60_Threads
import Verif.Model.DefaultResource
import Verif.Props.C61_DefaultResource
import Verif.Model.JagPipeline
import Verif.Spec.JagPipeline
import Verif.Lemmas.RowConc
import Verif.Lemmas.JagBuffer
import Verif.Lemmas.JagPipeline
import Verif.Lemmas.JagPipelineSteps
import Verif.Lemmas.JagPipelineCopies
import Verif.Lemmas.JagPipelineKernels
import Verif.Props.C62_JaggedPipelines
import Verif.Model.Tuple
import Verif.Spec.Tuple
import Verif.Lemmas.Tuple
import Verif.Props.C63_Tuples
import Verif.Model.AsyncPipeline
import Verif.Spec.AsyncPipeline
import Verif.Lemmas.AsyncPipeline
import Verif.Props.C64_AsyncPipelines
import Verif.Model.EdmPipeline
import Verif.Spec.EdmPipeline
import Verif.Lemmas.EdmPipelineBuffer
import Verif.Lemmas.EdmPipeline
import Verif.Lemmas.EdmPipelineSteps
import Verif.Lemmas.EdmPipelineCopies
import Verif.Lemmas.EdmAppend
import Verif.Lemmas.EdmPipelineKernels
import Verif.Lemmas.EdmPipelineAppend
import Verif.Lemmas.EdmPipelineRaces
import Verif.Props.C65_EdmPipelines
import Verif.Model.AsyncProgram
import Verif.Model.AsyncEdm
import Verif.Spec.AsyncProgram
import Verif.Spec.AsyncEdm
import Verif.Lemmas.AsyncProgram
import Verif.Lemmas.AsyncFoot
import Verif.Lemmas.AsyncSim
import Verif.Lemmas.AsyncEdmFoot
import Verif.Lemmas.AsyncEdmKernels
import Verif.Lemmas.AsyncEdm
import Verif.Lemmas.AsyncRun
import Verif.Props.C66_AsyncEdm
import Verif.Model.AsyncJag
import Verif.Spec.AsyncJag
import Verif.Lemmas.AsyncJag
import Verif.Props.C67_AsyncJagged
import Verif.Model.Double
import Verif.Spec.Double
import Verif.Lemmas.Double
import Verif.Model.BufferMoves
import Verif.Spec.BufferMoves
import Verif.Lemmas.BufferMoves
import Verif.Lemmas.BufferMovesUse
import Verif.Lemmas.BufferMovesSteps
import Verif.Lemmas.BufferMovesJag
import Verif.Props.C68_BufferMoves
import Verif.Model.ViewValues
import Verif.Spec.ViewValues
import Verif.Lemmas.ViewValues
import Verif.Lemmas.ViewSteps
import Verif.Props.C69_Views
import Verif.Lemmas.EdmCopyPrefix
import Verif.Lemmas.EdmSizes
import Verif.Model.EdmMoves
import Verif.Spec.EdmMoves
import Verif.Lemmas.EdmMoves
import Verif.Props.C70_EdmMoves
import Verif.Model.Faults
import Verif.Spec.Faults
import Verif.Lemmas.Faults
import Verif.Lemmas.ArenaFaults
import Verif.Lemmas.StrictBase
import Verif.Props.C71_Faults
import Verif.Model.HostData
import Verif.Spec.HostData
import Verif.Lemmas.HostData
import Verif.Props.C72_HostData
import Verif.Spec.WeakMemory
import Verif.Model.WeakMemory
import Verif.Lemmas.WeakMemory
import Verif.Lemmas.WeakImpls
import Verif.Props.C73_C74_Orders
import Verif.Spec.Misuse
import Verif.Lemmas.Misuse
import Verif.Props.C75_Misuse
import Verif.Spec.WeakVector
import Verif.Model.WeakVector
import Verif.Spec.WeakTasks
import Verif.Lemmas.WeakClaims
import Verif.Lemmas.WeakVector
import Verif.Lemmas.WeakPlaces
import Verif.Lemmas.WeakRuns
import Verif.Props.C76_WeakVector
import Verif.Model.WeakKernel
import Verif.Spec.WeakKernel
import Verif.Spec.WeakPipeline
import Verif.Lemmas.SequentialRun
import Verif.Lemmas.WeakKernel
import Verif.Lemmas.WeakSequential
import Verif.Lemmas.WeakProgress
import Verif.Lemmas.WeakPipeline
import Verif.Props.C77_WeakKernels
import Verif.Model.WeakSeveral
import Verif.Spec.WeakSeveral
import Verif.Lemmas.WeakSeveral
import Verif.Props.C78_WeakSeveral
import Verif.Lemmas.SequentialRows
import Verif.Spec.WeakRows
import Verif.Lemmas.WeakRows
import Verif.Props.C79_WeakJagged
import Verif.Spec.RaceFree
import Verif.Lemmas.RaceFree
import Verif.Props.C80_RaceFree
import Verif.Props.C73_Latest
import Verif.Model.WeakAccess
import Verif.Model.WeakContainer
import Verif.Spec.WeakAccess
import Verif.Spec.WeakContainer
import Verif.Spec.WeakContainers
import Verif.Lemmas.WeakAccess
import Verif.Lemmas.EdmOrdered
import Verif.Lemmas.WeakContainer
import Verif.Lemmas.WeakContainers
import Verif.Props.C81_WeakContainers
import Verif.Spec.WeakInputs
import Verif.Lemmas.WeakInputs
import Verif.Model.WeakReading
import Verif.Spec.WeakReading
import Verif.Lemmas.WeakReading
import Verif.Props.C82_WeakReading
import Verif.Model.WeakReadingLists
import Verif.Spec.WeakReadingLists
import Verif.Spec.WeakAccessLists
import Verif.Spec.WeakCounters
import Verif.Spec.WeakCounting
import Verif.Spec.WeakLoops
import Verif.Model.WeakCounters
import Verif.Model.WeakCounting
import Verif.Model.WeakLoops
import Verif.Lemmas.WeakReadingLists
import Verif.Lemmas.WeakAccessLists
import Verif.Lemmas.WeakCounters
import Verif.Lemmas.WeakCounting
import Verif.Lemmas.WeakLoops
import Verif.Props.C83_WeakReadingLists
import Verif.Spec.WeakMisuse
import Verif.Lemmas.WeakMisuse
import Verif.Props.C84_WeakMisuse
import Verif.Props.C85_WeakAccessLists
import Verif.Props.C86_WeakCounters
import Verif.Props.C87_WeakCounting
import Verif.Props.C88_WeakLoops
