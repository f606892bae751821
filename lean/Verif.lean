import Verif.DType
import Verif.Factory
import Verif.Isometry
import Verif.Lazy
import Verif.Linalg.Contract
import Verif.Linalg.ContractLemmas
import Verif.Linalg.Eig
import Verif.Linalg.EigLemmas
import Verif.Linalg.EigMain
import Verif.Linalg.EigRun
import Verif.Linalg.Env
import Verif.Linalg.EnvMps
import Verif.Linalg.EnvRight
import Verif.Linalg.RoundingSandwich
import Verif.Linalg.SandwichOp
import Verif.Linalg.Sweep
import Verif.MP
import Verif.MPArray.Add
import Verif.MPArray.AddLemmas
import Verif.MPArray.Canon
import Verif.MPArray.Chain
import Verif.MPArray.Compress
import Verif.MPArray.CompressLemmas
import Verif.MPArray.CompressMain
import Verif.MPArray.CompressRun
import Verif.MPArray.CompressSchmidt
import Verif.MPArray.CompressSweep
import Verif.MPArray.CompressVar
import Verif.MPArray.CompressVarLemmas
import Verif.MPArray.CompressVarMain
import Verif.MPArray.CompressVarRun
import Verif.MPArray.CompressVarStep
import Verif.MPArray.CompressVarTwo
import Verif.MPArray.CutLemmas
import Verif.MPArray.Dot
import Verif.MPArray.DumpLoad
import Verif.MPArray.FromArray
import Verif.MPArray.Group
import Verif.MPArray.Inject
import Verif.MPArray.Inner
import Verif.MPArray.Interrupt
import Verif.MPArray.InterruptLemmas
import Verif.MPArray.LocalSum
import Verif.MPArray.LocalSumLemmas
import Verif.MPArray.Matricize
import Verif.MPArray.Norm
import Verif.MPArray.OpenCompress
import Verif.MPArray.OpenTwo
import Verif.MPArray.PadRanks
import Verif.MPArray.PartialDot
import Verif.MPArray.Pick
import Verif.MPArray.Prune
import Verif.MPArray.RanksKept
import Verif.MPArray.Reshape
import Verif.MPArray.Rounding
import Verif.MPArray.RoundingAdd
import Verif.MPArray.RoundingChain
import Verif.MPArray.RoundingCompress
import Verif.MPArray.RoundingCompressMain
import Verif.MPArray.RoundingDot
import Verif.MPArray.RoundingFold
import Verif.MPArray.RoundingFromArray
import Verif.MPArray.RoundingInner
import Verif.MPArray.RoundingL2
import Verif.MPArray.RoundingNorm
import Verif.MPArray.RoundingNormdist
import Verif.MPArray.RoundingOpen
import Verif.MPArray.RoundingOpenL
import Verif.MPArray.RoundingPolar
import Verif.MPArray.RoundingSeg
import Verif.MPArray.RoundingShadow
import Verif.MPArray.RoundingStep
import Verif.MPArray.RoundingSum
import Verif.MPArray.RoundingSvd
import Verif.MPArray.RoundingSvdStep
import Verif.MPArray.RoundingSweep
import Verif.MPArray.RoundingTrace
import Verif.MPArray.Scale
import Verif.MPArray.Sum
import Verif.MPArray.SumCore
import Verif.MPArray.SumLemmas
import Verif.MPArray.Threads
import Verif.MPArray.ThreadsLemmas
import Verif.MPArray.ToArray
import Verif.MPArray.ToGlobal
import Verif.MPArray.Transpose
import Verif.MPArray.VLeg
import Verif.MPStruct
import Verif.Mpsmpo
import Verif.NamedArray
import Verif.Np.Basic
import Verif.Np.BlockDiag
import Verif.Np.Contract
import Verif.Np.Lemmas
import Verif.Np.Squeeze
import Verif.Oracle.EckartYoung
import Verif.Oracle.Eigs
import Verif.Oracle.Generic
import Verif.Oracle.QR
import Verif.Oracle.SVD
import Verif.Physics
import Verif.Povm.ElemSum
import Verif.Povm.EstFrom
import Verif.Povm.EstLemmas
import Verif.Povm.EstSamples
import Verif.Povm.Lfun
import Verif.Povm.LfunFrom
import Verif.Povm.LfunFromLemmas
import Verif.Povm.LocalPovm
import Verif.Povm.Match
import Verif.Povm.MatchDot
import Verif.Povm.MatchLemmas
import Verif.Povm.MpPovm
import Verif.Povm.PmfLemmas
import Verif.Povm.PmfSymm
import Verif.Povm.PovmLists
import Verif.Povm.PovmSpec
import Verif.Povm.RoundingExpect
import Verif.Povm.RoundingPmf
import Verif.Povm.RoundingPmfCond
import Verif.Povm.RoundingPmfMixed
import Verif.Povm.Samples
import Verif.Povm.Sampling
import Verif.Povm.SamplingLemmas
import Verif.Program.Dense
import Verif.Program.DenseA
import Verif.Program.DenseB
import Verif.Program.DenseC
import Verif.Program.DenseD
import Verif.Program.DenseLemmas
import Verif.Program.DenseUnique
import Verif.Program.Store
import Verif.Program.StoreProofs
import Verif.Props.C01
import Verif.Props.C02
import Verif.Props.C02More
import Verif.Props.C05
import Verif.Props.C05More
import Verif.Props.C06
import Verif.Props.C07
import Verif.Props.C08
import Verif.Props.C08More
import Verif.Props.C08Vector
import Verif.Props.C09
import Verif.Props.C10
import Verif.Props.C13
import Verif.Props.C14
import Verif.Props.C14More
import Verif.Props.C15
import Verif.Props.C16
import Verif.Props.C17
import Verif.Props.C18
import Verif.Props.C19
import Verif.Props.C20
import Verif.Props.C21
import Verif.Props.C22
import Verif.Props.C23
import Verif.Props.C24
import Verif.Props.C25
import Verif.Props.C26
import Verif.Props.C27
import Verif.Props.C29
import Verif.Props.C30
import Verif.Props.C31
import Verif.Props.C32
import Verif.Props.C33
import Verif.Props.C34
import Verif.Props.C35
import Verif.Props.C36
import Verif.Props.C37
import Verif.Props.C38
import Verif.Props.C39
import Verif.Props.C40
import Verif.Props.C41
import Verif.Props.C42
import Verif.Props.C42Mps
import Verif.Props.C43
import Verif.Props.C44
import Verif.Props.C45
import Verif.Props.C46
import Verif.Props.C47
import Verif.Props.C48
import Verif.Props.C49
import Verif.Props.C49Ham
import Verif.Props.C49Random
import Verif.Props.C50
import Verif.Props.C51
import Verif.Props.C52
import Verif.Props.C53
import Verif.Props.C54
import Verif.Props.C55
import Verif.Props.C56
import Verif.Props.C57
import Verif.Props.C57Example
import Verif.Props.C57Mpps
import Verif.Props.C58
import Verif.Props.C58Est
import Verif.Props.C58Example
import Verif.Props.C59
import Verif.Props.C59Pauli
import Verif.Props.C60
import Verif.Props.C60Block
import Verif.Props.C60Examples
import Verif.Props.C60Sample
import Verif.Props.C61
import Verif.Props.C61Exact
import Verif.Props.C61Prob
import Verif.Props.C62
import Verif.Props.C63
import Verif.Props.C63Alg
import Verif.Props.C63Ground
import Verif.Props.C63Ops
import Verif.Props.C63Sum
import Verif.Props.C64
import Verif.Props.C64Unique
import Verif.Props.C65
import Verif.Props.C66
import Verif.Props.C67
import Verif.Props.C68
import Verif.Props.C68Examples
import Verif.Props.C69
import Verif.Props.C70
import Verif.Props.C71
import Verif.Props.C72
import Verif.Props.C73
import Verif.Props.C74
import Verif.Props.C75
import Verif.Props.C76
import Verif.Props.C76Stale
import Verif.Props.C77
import Verif.Props.C78
import Verif.Props.C78Inner
import Verif.Props.C79
import Verif.Props.C80
import Verif.Props.C81
import Verif.Props.C82
import Verif.Props.C83
import Verif.Props.C84
import Verif.Props.C84Mixed
import Verif.Props.C85
import Verif.Props.C85Args
import Verif.Props.C85Rest
import Verif.Props.C86
import Verif.Props.C86Race
import Verif.Props.C87
import Verif.Props.C87Dot
import Verif.Props.C88
import Verif.Props.C89
import Verif.Props.C90
import Verif.Props.C91
import Verif.Props.C92
import Verif.Props.SiteErrors
import Verif.RoundingDm
import Verif.RoundingReductions
import Verif.Sitewise
import Verif.Spec
import Verif.SpecSvd
import Verif.Special
import Verif.SpecialLemmas
import Verif.StructLemmas
import Verif.Testing
import Verif.Utils.ArrayTransforms
import Verif.Utils.ExtMath
import Verif.Utils.ExtMathLemmas
import Verif.Utils.Pmf
import Verif.Valid
