import Verif.Base
import Verif.Model.Arith
import Verif.Lemmas.ArithSqrt
import Verif.Lemmas.ArithExp
import Verif.Lemmas.ArithNT
import Verif.Lemmas.ArithFactor
import Verif.Props.Arith
import Verif.Model.Ring
import Verif.Model.Field
import Verif.Lemmas.Ring
import Verif.Lemmas.RingRoot
import Verif.Props.Ring
import Verif.Model.Fft2n
import Verif.Lemmas.BitRev
import Verif.Lemmas.Dft
import Verif.Lemmas.Fft2n
import Verif.Lemmas.Fft2nPrime
import Verif.Props.Fft2n
import Verif.Model.Property
import Verif.Lemmas.Property
import Verif.Props.Property
import Verif.Props.PropertyText
import Verif.Model.Poly
import Verif.Lemmas.Poly
import Verif.Props.Poly
import Verif.Lemmas.Lagrange
import Verif.Model.Fec
import Verif.Lemmas.FecDec
import Verif.Lemmas.Marks
import Verif.Lemmas.FecStream
import Verif.Lemmas.FecSelect
import Verif.Lemmas.FecFnt
import Verif.Lemmas.FecFntStream
import Verif.Lemmas.FecUb
import Verif.Props.Fec
import Verif.Model.Buffers
import Verif.Lemmas.Buffers
import Verif.Model.FecBuf
import Verif.Model.Counts
import Verif.Lemmas.BufOps
import Verif.Lemmas.FecBuf
import Verif.Lemmas.FecBufCtx
import Verif.Lemmas.Packet
import Verif.Lemmas.FecVert
import Verif.Lemmas.FecBlock
import Verif.Lemmas.FecAny
import Verif.Lemmas.FecFntBuf
import Verif.Spec.Fnt
import Verif.Lemmas.FntCode
import Verif.Props.FecVert
import Verif.Lemmas.BufElem
import Verif.Props.Buffers
import Verif.Model.Simd
import Verif.Lemmas.Simd
import Verif.Lemmas.Cols
import Verif.Lemmas.SimdBuf
import Verif.Lemmas.SimdKern
import Verif.Lemmas.SimdFft
import Verif.Lemmas.SimdFft2
import Verif.Lemmas.SimdFft3
import Verif.Lemmas.SimdFft4
import Verif.Lemmas.SimdPost
import Verif.Lemmas.SimdBuild
import Verif.Props.Simd
import Verif.Model.BinExt
import Verif.Spec.Gf2n
import Verif.Lemmas.BinPoly
import Verif.Lemmas.BinIrr
import Verif.Lemmas.BinField
import Verif.Lemmas.BinExt
import Verif.Lemmas.BinObj
import Verif.Lemmas.BinSpec
import Verif.Lemmas.BinFull
import Verif.Props.BinExt
import Verif.Model.Matrix
import Verif.Model.FecGf2n
import Verif.Spec.Matrix
import Verif.Spec.FecGf2n
import Verif.Lemmas.Matrix
import Verif.Lemmas.MatInv
import Verif.Lemmas.MatCode
import Verif.Lemmas.MatCauchy
import Verif.Lemmas.MatApi
import Verif.Lemmas.FecGf2n
import Verif.Lemmas.FecGf2nRec
import Verif.Props.Matrix
import Verif.Props.FecGf2n
import Verif.Model.FftOther
import Verif.Spec.Dft
import Verif.Lemmas.FftDft
import Verif.Lemmas.FftOther
import Verif.Lemmas.FftGt
import Verif.Lemmas.FftLarge
import Verif.Lemmas.FftObj
import Verif.Lemmas.FftBuf
import Verif.Props.FftOther
import Verif.Model.FecFft
import Verif.Spec.FecFft
import Verif.Lemmas.CodeLen
import Verif.Lemmas.FecFft
import Verif.Lemmas.FecFftBuild
import Verif.Props.FecFft
import Verif.Model.FftAdd
import Verif.Lemmas.Taylor
import Verif.Lemmas.FftAdd
import Verif.Spec.FftAdd
import Verif.Lemmas.FftAddObj
import Verif.Props.FftAdd
import Verif.Model.FecFftAdd
import Verif.Lemmas.FecFftAdd
import Verif.Lemmas.FecFftAddBuild
import Verif.Props.FecFftAdd
import Verif.Model.NF4
import Verif.Spec.Nf4
import Verif.Lemmas.NF4
import Verif.Lemmas.NF4Ops
import Verif.Lemmas.NF4Had
import Verif.Props.NF4
import Verif.Model.FecNf4
import Verif.Lemmas.NF4Obj
import Verif.Lemmas.NF4Wide
import Verif.Lemmas.FecNf4
import Verif.Props.FecNf4
import Verif.Model.CApi
import Verif.Spec.CApi
import Verif.Lemmas.CApiSim
import Verif.Lemmas.CApiMeta
import Verif.Lemmas.CApiMem
import Verif.Lemmas.CApi
import Verif.Lemmas.CApiRec
import Verif.Lemmas.CApiMarks
import Verif.Props.CApi
import Verif.Model.Alloc
import Verif.Spec.Alloc
import Verif.Lemmas.Alloc
import Verif.Props.Alloc
import Verif.Model.Vec
import Verif.Spec.Vec
import Verif.Lemmas.Vec
import Verif.Props.Vec
import Verif.Props.BufBin
import Verif.Props.FecPart
import Verif.Spec.Packets
import Verif.Model.FecNf4Buf
import Verif.Lemmas.Packets
import Verif.Lemmas.FecNf4Buf
import Verif.Props.FecNf4Vert
import Verif.Props.Residue
import Verif.Lemmas.LongCode
import Verif.Props.Params
import Verif.Props.Counts
import Verif.Lemmas.NoPackets
import Verif.Props.NoPackets
import Verif.Props.Life
import Verif.Props.Lookup
import Verif.Model.Session
import Verif.Spec.Session
import Verif.Lemmas.Session
import Verif.Props.Session
import Verif.Model.Driver
import Verif.Spec.Driver
import Verif.Lemmas.Driver
import Verif.Lemmas.DriverCodes
import Verif.Props.Driver
import Verif.Spec.Interop
import Verif.Lemmas.Interop
import Verif.Lemmas.InteropFnt
import Verif.Props.Interop
import Verif.Props.Corrupt
import Verif.Lemmas.CApiAny
import Verif.Lemmas.CApiRecAny
import Verif.Props.CApiAny
import Verif.Spec.AnyWords
import Verif.Lemmas.FecAnyWords
import Verif.Props.AnyWords
import Verif.Spec.AnyMarks
import Verif.Lemmas.FecAnyMarks
import Verif.Props.AnyMarks
import Verif.Spec.AnyLanes
import Verif.Lemmas.FecNf4Any
import Verif.Lemmas.FecNf4BufAny
import Verif.Props.AnyLanes
import Verif.Model.DriverMain
import Verif.Spec.DriverMain
import Verif.Lemmas.DriverMain
import Verif.Props.DriverMain
import Verif.Spec.Lengths
import Verif.Lemmas.Lengths
import Verif.Props.Lengths
import Verif.Model.Misc
import Verif.Spec.Misc
import Verif.Lemmas.Misc
import Verif.Props.Misc
import Verif.Props.LengthsPacked
import Verif.Props.ZeroPackets
import Verif.Props.Vandermonde
import Verif.Model.Rand
import Verif.Spec.Rand
import Verif.Props.Rand
import Verif.Model.Cache
import Verif.Spec.Cache
import Verif.Lemmas.Cache
import Verif.Props.Cache
import Verif.Model.Dump
import Verif.Spec.Dump
import Verif.Lemmas.Dump
import Verif.Props.Dump
import Verif.Model.Getopt
import Verif.Spec.Getopt
import Verif.Props.Getopt
import Verif.Lemmas.FftOverflow
import Verif.Props.FftOverflow
import Verif.Model.Bench
import Verif.Spec.Bench
import Verif.Lemmas.Crc
import Verif.Lemmas.BenchChunk
import Verif.Lemmas.Bench
import Verif.Props.Bench
import Verif.Props.BenchRun
import Verif.Lemmas.FecFntWords
import Verif.Props.FecWords
import Verif.Model.BenchMain
import Verif.Spec.BenchMain
import Verif.Lemmas.BenchMain
import Verif.Props.BenchMain
import Verif.Model.BigInt
import Verif.Spec.BigInt
import Verif.Props.BigInt
import Verif.Model.Stats
import Verif.Spec.Stats
import Verif.Lemmas.Stats
import Verif.Props.Stats
import Verif.Model.BenchStats
import Verif.Spec.BenchStats
import Verif.Props.BenchStats
import Verif.Spec.Distance
import Verif.Props.Distance
import Verif.Spec.Linear
import Verif.Props.Linear
import Verif.Spec.Combine
import Verif.Props.Combine
import Verif.Spec.Repair
import Verif.Lemmas.Repair
import Verif.Props.Repair
import Verif.Spec.Pieces
import Verif.Props.Pieces
import Verif.Lemmas.Getopt
import Verif.Props.GfpBuilt
import Verif.Lemmas.LongFft
import Verif.Props.FftBuilt
import Verif.Lemmas.AnyBasis
import Verif.Lemmas.AnyBasisCode
import Verif.Props.AnyLength
