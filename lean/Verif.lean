import Verif.Model.Align
import Verif.Model.BarrierFine
import Verif.Model.Basic
import Verif.Model.BitWindow
import Verif.Model.BranchFree
import Verif.Model.BranchFreeCfg
import Verif.Model.Call
import Verif.Model.Chunked
import Verif.Model.Cl2c
import Verif.Model.ClCache
import Verif.Model.ClHost
import Verif.Model.ClOptions
import Verif.Model.ClSample
import Verif.Model.ClThreads
import Verif.Model.CompFine
import Verif.Model.CompFull
import Verif.Model.CompStream
import Verif.Model.Condense
import Verif.Model.Config
import Verif.Model.Crc
import Verif.Model.CrcTable
import Verif.Model.Cryptodev
import Verif.Model.CryptodevThreads
import Verif.Model.Cuda
import Verif.Model.CudaInterleave
import Verif.Model.CudaSample
import Verif.Model.DecompFine
import Verif.Model.DecompFull
import Verif.Model.DecompStream
import Verif.Model.GenCrc
import Verif.Model.Hls
import Verif.Model.HlsDriver
import Verif.Model.HwCalls
import Verif.Model.Impl
import Verif.Model.LatchFine
import Verif.Model.Log2
import Verif.Model.NonStrict
import Verif.Model.NumaSpread
import Verif.Model.NumaTrace
import Verif.Model.Ocl
import Verif.Model.OclConfig
import Verif.Model.OclInterleave
import Verif.Model.OclKernel
import Verif.Model.OmpInterleave
import Verif.Model.OptComp
import Verif.Model.OptDecomp
import Verif.Model.OptHeap
import Verif.Model.PgInterleave
import Verif.Model.Pgasus
import Verif.Model.Sample
import Verif.Model.StreamBlock
import Verif.Model.StreamRaces
import Verif.Model.StreamSample
import Verif.Model.SwComp
import Verif.Model.SwDecomp
import Verif.Model.SwHeap
import Verif.Model.SwStrict
import Verif.Model.Sync
import Verif.Model.Templates
import Verif.Model.WordComp
import Verif.Model.WordCuda
import Verif.Model.WordDecomp
import Verif.Model.WordOcl
import Verif.Model.WordOptComp
import Verif.Proofs.AddBits
import Verif.Proofs.BStream
import Verif.Proofs.BarrierExec
import Verif.Proofs.BarrierFine
import Verif.Proofs.BarrierRefine
import Verif.Proofs.Bits
import Verif.Proofs.BranchFree
import Verif.Proofs.BranchFreeCfg
import Verif.Proofs.Cancel
import Verif.Proofs.Causal
import Verif.Proofs.Chunks
import Verif.Proofs.ChunksTight
import Verif.Proofs.Cl2c
import Verif.Proofs.ClCache
import Verif.Proofs.ClHost
import Verif.Proofs.ClOptions
import Verif.Proofs.ClSample
import Verif.Proofs.ClThreads
import Verif.Proofs.ClThreads2
import Verif.Proofs.CompFine
import Verif.Proofs.CompFine2
import Verif.Proofs.CompFine3
import Verif.Proofs.CompFull
import Verif.Proofs.CompFull2
import Verif.Proofs.CompQuit
import Verif.Proofs.CompStream
import Verif.Proofs.CompStream2
import Verif.Proofs.CompStream3
import Verif.Proofs.CompStream4
import Verif.Proofs.CompStream5
import Verif.Proofs.CompStream6
import Verif.Proofs.CondSafe
import Verif.Proofs.Condense
import Verif.Proofs.Config
import Verif.Proofs.ConfigCrc
import Verif.Proofs.CrcModel
import Verif.Proofs.CrcOrder
import Verif.Proofs.CrcSpec
import Verif.Proofs.Cryptodev
import Verif.Proofs.CryptodevThreads
import Verif.Proofs.Cuda
import Verif.Proofs.CudaEnds
import Verif.Proofs.CudaInterleave
import Verif.Proofs.CudaSample
import Verif.Proofs.Cut
import Verif.Proofs.DecLoop
import Verif.Proofs.DecStep
import Verif.Proofs.DecompFine
import Verif.Proofs.DecompFine2
import Verif.Proofs.DecompFine3
import Verif.Proofs.DecompFull
import Verif.Proofs.DecompFull2
import Verif.Proofs.DecompStream
import Verif.Proofs.DecompStream2
import Verif.Proofs.DecompStream3
import Verif.Proofs.DecompStream4
import Verif.Proofs.Depth
import Verif.Proofs.ErrCodes
import Verif.Proofs.Expansion
import Verif.Proofs.Grow
import Verif.Proofs.History
import Verif.Proofs.Hls
import Verif.Proofs.HlsDriver
import Verif.Proofs.Interleave
import Verif.Proofs.LatchFine
import Verif.Proofs.Minimal
import Verif.Proofs.Monad
import Verif.Proofs.NewWords
import Verif.Proofs.NoRoom
import Verif.Proofs.NonStrict
import Verif.Proofs.NumaSpread
import Verif.Proofs.NumaTrace
import Verif.Proofs.Ocl
import Verif.Proofs.OclConfig
import Verif.Proofs.OclFull
import Verif.Proofs.OclInterleave
import Verif.Proofs.OclKernel
import Verif.Proofs.OclLaunch
import Verif.Proofs.OclLong
import Verif.Proofs.OclNoLook
import Verif.Proofs.OclOverread
import Verif.Proofs.OclRoom
import Verif.Proofs.OmpInterleave
import Verif.Proofs.OmpLoops
import Verif.Proofs.OpCode
import Verif.Proofs.OptCall
import Verif.Proofs.OptComp
import Verif.Proofs.OptDecomp
import Verif.Proofs.OptDict
import Verif.Proofs.OptEndian
import Verif.Proofs.OptEvict
import Verif.Proofs.OptRef
import Verif.Proofs.OptZero
import Verif.Proofs.Overflow
import Verif.Proofs.PgErrors
import Verif.Proofs.PgInterleave
import Verif.Proofs.PgInterleave2
import Verif.Proofs.Pgasus
import Verif.Proofs.PgasusMain
import Verif.Proofs.Prefix
import Verif.Proofs.PrefixCuda
import Verif.Proofs.Reader
import Verif.Proofs.RefComp
import Verif.Proofs.Runs
import Verif.Proofs.Sample
import Verif.Proofs.Size
import Verif.Proofs.Stale
import Verif.Proofs.StaleCuda
import Verif.Proofs.StreamBlock
import Verif.Proofs.StreamRaces
import Verif.Proofs.StreamSample
import Verif.Proofs.StreamSample2
import Verif.Proofs.StreamSample3
import Verif.Proofs.SwCall
import Verif.Proofs.SwComp
import Verif.Proofs.SwDecomp
import Verif.Proofs.SwEndian
import Verif.Proofs.SwHeap
import Verif.Proofs.SwHeapPeak
import Verif.Proofs.SwRoom
import Verif.Proofs.Sync
import Verif.Proofs.Tail
import Verif.Proofs.Torn
import Verif.Proofs.Window
import Verif.Proofs.WordBody
import Verif.Proofs.WordComp
import Verif.Proofs.WordCompBody
import Verif.Proofs.WordCuda
import Verif.Proofs.WordDecomp
import Verif.Proofs.WordOcl
import Verif.Proofs.WordOpt
import Verif.Proofs.WordOptComp
import Verif.Proofs.WordRel
import Verif.Proofs.Words
import Verif.Proofs.WorkBound
import Verif.Proofs.WorkBoundOcl
import Verif.Proofs.WorkBoundOclInput
import Verif.Proofs.WorkBoundOpt
import Verif.Proofs.Writer
import Verif.Props.Align
import Verif.Props.BarrierFine
import Verif.Props.BranchFree
import Verif.Props.BranchFreeCfg
import Verif.Props.Cancel
import Verif.Props.Causal
import Verif.Props.Chunked
import Verif.Props.Chunks
import Verif.Props.Cl2c
import Verif.Props.ClCache
import Verif.Props.ClHost
import Verif.Props.ClOptions
import Verif.Props.ClSample
import Verif.Props.ClThreads
import Verif.Props.CompFine
import Verif.Props.CompStream
import Verif.Props.Condense
import Verif.Props.Config
import Verif.Props.Crc
import Verif.Props.CrcCount
import Verif.Props.Cryptodev
import Verif.Props.CryptodevThreads
import Verif.Props.Cuda
import Verif.Props.CudaEnds
import Verif.Props.CudaInterleave
import Verif.Props.CudaSample
import Verif.Props.DecompFine
import Verif.Props.DecompStream
import Verif.Props.Depth
import Verif.Props.ErrCodes
import Verif.Props.Expansion
import Verif.Props.Final
import Verif.Props.History
import Verif.Props.Hls
import Verif.Props.HlsDriver
import Verif.Props.HwExchange
import Verif.Props.Impl
import Verif.Props.LatchFine
import Verif.Props.Log2
import Verif.Props.Minimal
import Verif.Props.NewWords
import Verif.Props.NoRoom
import Verif.Props.NonStrict
import Verif.Props.NumaSpread
import Verif.Props.NumaTrace
import Verif.Props.Ocl
import Verif.Props.OclConfig
import Verif.Props.OclFull
import Verif.Props.OclInterleave
import Verif.Props.OclRoom
import Verif.Props.OmpInterleave
import Verif.Props.Opt
import Verif.Props.OptDict
import Verif.Props.OptHeap
import Verif.Props.OptLoss
import Verif.Props.OptSize
import Verif.Props.PgInterleave
import Verif.Props.Pgasus
import Verif.Props.Preferred
import Verif.Props.Prefix
import Verif.Props.PrefixCuda
import Verif.Props.Ring
import Verif.Props.Runs
import Verif.Props.Sample
import Verif.Props.Size
import Verif.Props.Stale
import Verif.Props.StaleCuda
import Verif.Props.StreamBlock
import Verif.Props.StreamDamage
import Verif.Props.StreamFine
import Verif.Props.StreamFull
import Verif.Props.StreamRaces
import Verif.Props.StreamRoundTrip
import Verif.Props.StreamSample
import Verif.Props.Sw
import Verif.Props.SwHeap
import Verif.Props.SwHeapPeak
import Verif.Props.SwRoom
import Verif.Props.SwStrict
import Verif.Props.Sync
import Verif.Props.Tail
import Verif.Props.Templates
import Verif.Props.Torn
import Verif.Props.Words
import Verif.Props.WordsGpu
import Verif.Props.WorkBound
import Verif.Props.WorkBoundOcl
import Verif.Props.WorkBoundOclInput
import Verif.Props.WorkBoundOpt
import Verif.Spec
import Verif.SpecAlign
import Verif.SpecCText
import Verif.SpecCl
import Verif.SpecClHost
import Verif.SpecClOptions
import Verif.SpecDStream
import Verif.SpecDict
import Verif.SpecDirect
import Verif.SpecHeap
import Verif.SpecHls
import Verif.SpecInterleave
import Verif.SpecMem
import Verif.SpecMin
import Verif.SpecNew
import Verif.SpecOmp
import Verif.SpecRace
import Verif.SpecRoom
import Verif.SpecSize
import Verif.SpecStream
import Verif.SpecSys
import Verif.Validation
