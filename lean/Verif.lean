import Verif.Basic
import Verif.Varint
import Verif.RangeCoder
import Verif.BitCodes
import Verif.ProbModels
import Verif.Streams
import Verif.BlockHeader
import Verif.Slicing
import Verif.CircBuf
import Verif.Runs
import Verif.Sections
import Verif.FreqTable
import Verif.HuffTree
import Verif.HuffLengths
import Verif.HuffOpt
import Verif.HuffCodes
import Verif.HuffShape
import Verif.BitBuffer
import Verif.HuffLookup
import Verif.HuffLookupProof
import Verif.HuffLookupTable
import Verif.HuffBlock
import Verif.BWT
import Verif.InvBWT
import Verif.InvBWTProof
import Verif.InvBWTWalk
import Verif.FwdBWT
import Verif.Props.Varint
import Verif.Props.RangeCoder
import Verif.Props.BitCodes
import Verif.Props.ProbModels
import Verif.Props.Streams
import Verif.Props.BlockHeader
import Verif.Props.Slicing
import Verif.Props.CircBuf
import Verif.Props.Runs
import Verif.Props.Sections
import Verif.Props.FreqTable
import Verif.Props.HuffLengths
import Verif.Props.HuffCodes
import Verif.Props.HuffShape
import Verif.Props.BitBuffer
import Verif.Props.HuffLookup
import Verif.Props.HuffBlock
import Verif.Props.BWT
import Verif.GrammarPairs
import Verif.Grammar
import Verif.GrammarEval
import Verif.GrammarExpand
import Verif.GrammarStep
import Verif.GrammarUpdate
import Verif.PairReplace
import Verif.PairWrite
import Verif.PairRound
import Verif.PairDecide
import Verif.Props.GrammarPairs
import Verif.PairInPlace
import Verif.GrammarCount
import Verif.PairRounds
import Verif.PairSmall
import Verif.Props.PairReplace
import Verif.GrammarFreed
import Verif.GrammarIO
import Verif.GrammarIOParts
import Verif.GrammarIOSpec
import Verif.Props.GrammarIO
import Verif.WaveCode
import Verif.WaveTrees
import Verif.WaveParams
import Verif.WaveTrap
import Verif.WaveShape
import Verif.WaveChoice
import Verif.WaveTree
import Verif.WaveBF
import Verif.WaveWords
import Verif.Props.WaveCodes
import Verif.WaveHeap
import Verif.WaveRead
import Verif.WaveMake
import Verif.Props.WaveTree
import Verif.WaveFeed
import Verif.WaveQueue
import Verif.WaveLock
import Verif.WaveInts
import Verif.WaveWhole
import Verif.Props.WaveCoding
import Verif.WaveBlock
import Verif.Props.WaveBlock
import Verif.Container
import Verif.ContainerProof
import Verif.ContainerSize
import Verif.Props.Container
import Verif.Props.Sais
import Verif.Props.Divsuf
import Verif.Induce
import Verif.Suffix
import Verif.Sais
import Verif.SaisBuckets
import Verif.SaisLast
import Verif.SaisInduce
import Verif.SaisSpread
import Verif.SaisSort
import Verif.SaisKey
import Verif.SaisPlace
import Verif.SaisLms
import Verif.SaisName
import Verif.SaisNames
import Verif.SaisClass
import Verif.SaisLms2
import Verif.SaisSort2
import Verif.SaisPost2
import Verif.SaisStage1
import Verif.SaisReduce
import Verif.SaisBwt
import Verif.Divsuf
import Verif.DivsufPassB
import Verif.DivsufPassA
import Verif.DivsufCount
import Verif.DivsufPlace
import Verif.DivsufMove
import Verif.DivsufSpec
import Verif.DivsufStars
import Verif.DivsufSort
import Verif.DivsufRanks
import Verif.DivsufBwt
import Verif.Sssort
import Verif.SsBase
import Verif.SsInsert
import Verif.SsPart
import Verif.SsHeap
import Verif.SsIntro
import Verif.SsForward
import Verif.SsBackward
import Verif.SsRotate
import Verif.SsInplace
import Verif.SsSwap
import Verif.SsBoth
import Verif.SsSplit
import Verif.SsMerge
import Verif.SsRoot
import Verif.SsMain
import Verif.SsOk
import Verif.Trsort
import Verif.TrPart
import Verif.TrHeap
import Verif.TrInsert
import Verif.TrRoom
import Verif.TrState
import Verif.TrSplit
import Verif.TrRaw
import Verif.TrSorted
import Verif.TrOrder
import Verif.TrCopy
import Verif.TrPcopy
import Verif.TrTandem
import Verif.TrRep
import Verif.TrDriver
import Verif.TrMono
import Verif.DivsufAll
import Verif.ContainerSort
import Verif.Props.Sorters
import Verif.PairGain
import Verif.PairTally
import Verif.PairFit
import Verif.PairOverrun
import Verif.Props.PairFit
import Verif.PairTotal
import Verif.Props.PairTotal
import Verif.Props.Markov
import Verif.HuffSize
import Verif.Props.HuffSize
import Verif.Props.WaveSmall
import Verif.Props.WaveTrap
import Verif.FastInv
import Verif.FastInvProof
import Verif.Props.FastInv
import Verif.Repro
import Verif.Props.Repro
import Verif.WaveSound
import Verif.Sound
import Verif.Props.Sound
import Verif.Local
import Verif.Props.Local
import Verif.Main
import Verif.Props.Main
import Verif.SizeField
import Verif.Props.SizeField
import Verif.Predictors
import Verif.Props.Predictors
import Verif.MinHeap
import Verif.HeapTree
import Verif.Props.MinHeap
import Verif.CoderSize
import Verif.Props.CoderSize
import Verif.Tools
import Verif.Props.Tools
import Verif.Dmc
import Verif.Props.Dmc
import Verif.DivsufSA
import Verif.DivsufSAPass
import Verif.DivsufSAAll
import Verif.Props.DivsufSA
import Verif.HuTucker
import Verif.HuTuckerAll
import Verif.Props.HuTucker
import Verif.WaveNodes
import Verif.WaveNodesProof
import Verif.WaveNodesGrow
import Verif.WaveNodesLife
import Verif.Props.WaveNodes
import Verif.Pipe
import Verif.PipeProof
import Verif.Props.Pipe
import Verif.SmallUtils
import Verif.Props.SmallUtils
import Verif.Memory
import Verif.MemoryProof
import Verif.Props.Memory
import Verif.SaisMemory
import Verif.SaisMemoryProof
import Verif.Props.SaisMemory
import Verif.SaisHeap
import Verif.SaisHeapProof
import Verif.SaisHeapGrow
import Verif.Props.SaisHeap
import Verif.DivsufHeap
import Verif.Props.DivsufHeap
import Verif.Disk
import Verif.Props.Disk
import Verif.Files
import Verif.Props.Files
import Verif.Pieces
import Verif.Props.Pieces
import Verif.DecMemory
import Verif.Props.DecMemory
import Verif.GrammarSize
import Verif.GrammarUsed
import Verif.GrammarUsedRound
import Verif.Props.GrammarSize
import Verif.GrammarUsedSpec
import Verif.Props.GrammarUsed
