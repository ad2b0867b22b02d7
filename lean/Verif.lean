import Verif.Model.Go
import Verif.Lemmas.Ring
import Verif.Lemmas.Deque
import Verif.Lemmas.Queue
import Verif.Model.Stack
import Verif.Model.Deque
import Verif.Model.Queue
import Verif.Props.Stack
import Verif.Props.Deque
import Verif.Props.Queue
import Verif.Props.Heap
import Verif.Props.HeapStl
import Verif.Props.HeapStlTop
import Verif.Props.HeapStlExact
import Verif.Props.Cmp
import Verif.Props.SortSlice
import Verif.Props.SliceMem
import Verif.Props.HeapMem
import Verif.Props.Tree
import Verif.Props.DList
import Verif.Props.DListSort
import Verif.Props.DListCost
import Verif.Props.DListMove
import Verif.Props.DListMisuse
import Verif.Props.SList
import Verif.Props.SListMore
import Verif.Props.LFQueue
import Verif.Props.LFDeque
import Verif.Props.LFDequeProgress
import Verif.Props.RingBuffer
import Verif.Props.SpinLock
import Verif.Props.Rand
import Verif.Props.RangeU
import Verif.Props.Prime
import Verif.Props.PrimeTable
import Verif.Props.MathUtil
import Verif.Props.Crypto
import Verif.Props.SaltedHash
import Verif.Props.Hash
import Verif.Props.Ini
import Verif.Props.FileSize
import Verif.Props.FileSizeOrder
import Verif.Props.Duration
import Verif.Props.Regable
import Verif.Props.Registry
import Verif.Props.IoCopy
import Verif.Props.FsList
import Verif.Props.FsHash
import Verif.Props.FsTell
import Verif.Props.FsNone
import Verif.Props.FsPath
import Verif.Props.RBTree
import Verif.Props.RBShape
import Verif.Props.Path
import Verif.Props.FsLinks
import Verif.Props.FsFollow
import Verif.Props.FsListLinks
import Verif.Props.FsSplit
import Verif.Props.SListMerge
import Verif.Props.SpinPatience
import Verif.Props.SpinMisuse
import Verif.Props.WorkDir
import Verif.Props.StringHash
import Verif.Props.Rsa
import Verif.Props.ErrText
import Verif.Props.FileLock
import Verif.Props.SListTail
import Verif.Props.UnsafeStr
import Verif.Props.FloatEq
import Verif.Props.RandMore
import Verif.Props.RandBound
import Verif.Props.ParseDuration
import Verif.Props.RegText
import Verif.Props.RBTreeUnique
import Verif.Props.Backtrace
import Verif.Props.FileRWLock
import Verif.Props.Reflect
import Verif.Props.ParseTerms
import Verif.Props.LFQueueProgress
import Verif.Props.RingBufferProgress
import Verif.Lemmas.RoundingAgree
import Verif.Props.DurationFloat
import Verif.Props.DurationDistinct
import Verif.Props.ParseFraction
import Verif.Props.RandProgress
import Verif.Props.NextStep
import Verif.Props.TreeHeap
import Verif.Props.TreeHistory
import Verif.Props.TreeVisit
import Verif.Props.TreeNil
import Verif.Props.SListMisuse
import Verif.Props.ErrConc
import Verif.Props.RegConc
import Verif.Props.Guarded
import Verif.Props.RingExact
import Verif.Props.HeapCost
import Verif.Props.RingMemory
import Verif.Props.RingCost
import Verif.Props.SortProg
import Verif.Props.SortSliceExact
import Verif.Props.LFDequeWatch
import Verif.Props.RingWatch
import Verif.Props.StrRand
import Verif.Props.FileLockCrash
import Verif.Props.IniBytes
import Verif.Props.Race
import Verif.Props.SpinHistory
import Verif.Props.LockRace
import Verif.Props.Handover
import Verif.Props.Ciphers
import Verif.Props.Secrecy
import Verif.Props.CipherTables
import Verif.Props.RingWrap
import Verif.Props.Checksums
import Verif.Props.Digests
import Verif.Props.RsaMath
import Verif.Props.KeyTexts
import Verif.Props.RsaGen
import Verif.Props.KeyFormats
import Verif.Props.RsaSignature
import Verif.Props.Md5Sines
import Verif.Props.GoSort
import Verif.Props.FsDirs
import Verif.Props.FsRemove
import Verif.Props.FsAbs
import Verif.Props.Match
import Verif.Props.EvalLinks
import Verif.Props.KeyTextsOnly
import Verif.Props.PathList
import Verif.Props.WorkDirConc
import Verif.Props.RelFileLine
import Verif.Props.RBTreeClear
import Verif.Props.ReadLink
import Verif.Props.FsOpen
import Verif.Props.FsHistory
import Verif.Props.FileCopy
