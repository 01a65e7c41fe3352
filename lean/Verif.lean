import Verif.Proof.MemLemmas
import Verif.Props.Vec
import Verif.Proof.WF
import Verif.Proof.BwdInnerMany
import Verif.Proof.Bij
import Verif.Proof.Blocks
import Verif.Props.Params
import Verif.Props.Transform
import Verif.Props.Utils
import Verif.Props.Stats
import Verif.Props.Fftw
import Verif.Props.Batch
import Verif.Props.Conv
import Verif.Props.Conv2D
import Verif.Props.Mpi
import Verif.Props.Parallel
import Verif.Props.Gaps
import Verif.Props.Gather
import Verif.Props.Hermitian
import Verif.Props.Opt
import Verif.Props.Array
import Verif.Props.ArrayOwn
import Verif.Props.Transpose
import Verif.Props.Ow
import Verif.Props.Centered
import Verif.Props.CenteredConv
import Verif.Props.HermTransform
import Verif.Props.HermConv
import Verif.Props.OptClasses
import Verif.Props.HermConv2
import Verif.Props.HermConv3
import Verif.Props.Real
import Verif.Props.RealConv
import Verif.Props.RealConv2
import Verif.Props.RealConv3
import Verif.Props.MpiFft
import Verif.Props.MpiRcfft
import Verif.Props.MpiFft3
import Verif.Props.MpiRcfft3
import Verif.Props.MpiConv
import Verif.Props.MpiConvH
import Verif.Props.MpiFreq
import Verif.Props.MpiConv3
import Verif.Props.MpiConvH3
import Verif.Props.MpiFault
import Verif.Props.MpiSymm
import Verif.Props.Direct
import Verif.Props.Wrapper
import Verif.Props.WrapperEx
import Verif.Props.Rcfft
import Verif.Props.RBatch
import Verif.Props.Cfft
import Verif.Props.ComplexClass
import Verif.Props.Sse
import Verif.Props.Align
import Verif.Props.Corr
import Verif.Props.NewAlign
