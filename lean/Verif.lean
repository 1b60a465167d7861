import Verif.Basic
import Verif.SizeClass
import Verif.Header
import Verif.Pool
import Verif.FreeListLemmas
import Verif.AbsHeap
import Verif.HeapOps
import Verif.HeapMem
import Verif.SplitMerge
import Verif.Merge
import Verif.Region
import Verif.Chain
import Verif.HeapAlloc
import Verif.HeapFree
import Verif.Spec
import Verif.HeapUser
import Verif.ChainLemmas
import Verif.ChainInit
import Verif.ChainRealloc
import Verif.History
import Verif.HistoryLemmas
import Verif.Posix
import Verif.Samples
import Verif.PropsChain
import Verif.PropsChain2
import Verif.DoubleFree
import Verif.PropsChainNeg
import Verif.PropsHeader
import Verif.PropsRegion
import Verif.Stat
import Verif.PropsStat
import Verif.PropsShared
import Verif.Spin
import Verif.RoundRobin
import Verif.Pmem
import Verif.Queue
import Verif.PropsQueue
import Verif.LightSource
import Verif.PropsSource
import Verif.DefaultSource
import Verif.PropsDefault
import Verif.PropsDefaultClean
import Verif.SourceChain
import Verif.SourceFree
import Verif.SourceStep
import Verif.PosixSpec
import Verif.PosixInv
import Verif.PosixOps
import Verif.PropsPosix
import Verif.PropsPosixNeg
import Verif.Destroy
import Verif.DestroyLemmas
import Verif.PropsDestroy
import Verif.Concurrent
import Verif.ConcurrentLemmas
import Verif.PropsConcurrent
import Verif.ChainStart
import Verif.PropsUnregister
import Verif.Egg
import Verif.EggLemmas
import Verif.PropsEgg
import Verif.ConfigEnv
import Verif.PropsConfig
import Verif.PropsConfigText
import Verif.ConcPosix
import Verif.ConcSpec
import Verif.ConcLemmas
import Verif.ConcInv
import Verif.ConcStep
import Verif.ConcStep2
import Verif.ConcReach
import Verif.ConcProgress
import Verif.PropsConcPosix
import Verif.RegionInit
import Verif.BaseInit
import Verif.NumaStat
import Verif.NumaMigrate
import Verif.ConcSource
import Verif.ConcSourceLemmas
import Verif.ConcSourceInv
import Verif.ConcSourceStep
import Verif.PropsConcSource
import Verif.Ends
import Verif.EndsLemmas
import Verif.EndsMarks
import Verif.EndsStep
import Verif.PropsEnds
import Verif.ConcEnds
import Verif.ConcEndsFlag
import Verif.ConcEndsMarks
import Verif.ConcEndsStep
import Verif.ConcEndsReach
import Verif.PropsConcEnds
import Verif.NumaSource
import Verif.PropsNumaSource
import Verif.NodeSelect
import Verif.PropsNodeSelect
import Verif.PmemFile
import Verif.PropsPmemFile
import Verif.OddBuffer
import Verif.PropsOddBuffer
import Verif.QueueTso
import Verif.PropsQueueTso
import Verif.SpinTso
import Verif.PropsSpinTso
import Verif.RegionDel
import Verif.PropsRegionDel
import Verif.Hooks
import Verif.HooksLemmas
import Verif.HooksReach
import Verif.HooksTrace
import Verif.HooksBlocs
import Verif.PropsHooks
import Verif.HooksSource
import Verif.HooksLight
import Verif.HooksTotal
import Verif.PropsHooksSource
import Verif.Drf
import Verif.PropsDrf
import Verif.RegionSearch
import Verif.PropsRegionSearch
import Verif.RegionTso
import Verif.PropsRegionTso
import Verif.DefaultChain
import Verif.DefaultInv
import Verif.DefaultOps
import Verif.DefaultStep
import Verif.PropsDefaultChain
import Verif.ConcRealloc
import Verif.ConcReallocLemmas
import Verif.ConcReallocStep
import Verif.PropsConcRealloc
import Verif.PropsConcReallocAtomic
import Verif.ConcRefill
import Verif.ConcRefillLemmas
import Verif.PropsConcRefill
import Verif.PropsConcRefillRace
import Verif.PoolRange
import Verif.PropsPoolRange
import Verif.PropsPolicy
import Verif.PropsReallocPolicy
import Verif.PropsNoTrace
import Verif.PropsFootprint
import Verif.Dump
import Verif.PropsDump
import Verif.Pagemap
import Verif.PropsPagemap
import Verif.PropsCache
import Verif.PropsCacheEnds
import Verif.PropsBytes
import Verif.PropsSlack
import Verif.PropsSlackConc
import Verif.PropsSlackEnds
import Verif.PropsReallocProc
import Verif.PropsSizeConc
import Verif.PropsUsable
