import Verif.Backend.Householder
import Verif.Backend.LU
import Verif.Backend.SVD
import Verif.Base.Iface
import Verif.Base.LinAlg
import Verif.Base.LinAlgExists
import Verif.Base.Mat
import Verif.Base.Mem
import Verif.Base.Py
import Verif.Base.Rounding
import Verif.Base.RoundingLS
import Verif.Base.RoundingVec
import Verif.Model.Aware
import Verif.Model.DriverFunctions
import Verif.Model.EVD
import Verif.Model.Interpolative
import Verif.Model.LSQR
import Verif.Model.LeastSquares
import Verif.Model.LinalgWrappers
import Verif.Model.Matmakers
import Verif.Model.Mem
import Verif.Model.MemDrivers
import Verif.Model.MemLSQR
import Verif.Model.MemQB
import Verif.Model.Oblivious
import Verif.Model.PCG
import Verif.Model.PcSS1
import Verif.Model.PcSS2
import Verif.Model.Precond
import Verif.Model.QB
import Verif.Model.Rangefinders
import Verif.Model.Rounding
import Verif.Model.RoundingCUR
import Verif.Model.RoundingEVD
import Verif.Model.RoundingID
import Verif.Model.RoundingLS
import Verif.Model.RoundingNys
import Verif.Model.RoundingPCG
import Verif.Model.RoundingSPS
import Verif.Model.RoundingSPS2
import Verif.Model.SPLog
import Verif.Model.SVD
import Verif.Model.SaddleSys
import Verif.Model.Seeds
import Verif.Model.Sketching
import Verif.Model.Stats
import Verif.Proof.Angles
import Verif.Proof.Blocks
import Verif.Proof.ChangeVars
import Verif.Proof.Chaos
import Verif.Proof.ChiSq
import Verif.Proof.DCT
import Verif.Proof.EVD
import Verif.Proof.EVD2
import Verif.Proof.EVD2Error
import Verif.Proof.Embed
import Verif.Proof.Expect
import Verif.Proof.Gauss
import Verif.Proof.Generic
import Verif.Proof.GramPcSS1
import Verif.Proof.GramPrec
import Verif.Proof.ID
import Verif.Proof.IDError
import Verif.Proof.IDExpected
import Verif.Proof.Krylov
import Verif.Proof.LSQR
import Verif.Proof.LowRank
import Verif.Proof.LowRankTail
import Verif.Proof.LsqrRot
import Verif.Proof.Mat
import Verif.Proof.Mem
import Verif.Proof.MemDrivers
import Verif.Proof.MemLSQR
import Verif.Proof.MemPcSS2
import Verif.Proof.MemQB
import Verif.Proof.MemSaddle
import Verif.Proof.Net
import Verif.Proof.PCG
import Verif.Proof.PinvMean
import Verif.Proof.Precond
import Verif.Proof.QB
import Verif.Proof.QB3
import Verif.Proof.RS1
import Verif.Proof.Rank
import Verif.Proof.RotDraws
import Verif.Proof.Rounding
import Verif.Proof.RoundingFac
import Verif.Proof.RoundingIter
import Verif.Proof.RoundingLS
import Verif.Proof.RoundingOrth
import Verif.Proof.RoundingPCG
import Verif.Proof.RoundingSvdFac
import Verif.Proof.SPO
import Verif.Proof.SVD
import Verif.Proof.SparseSign
import Verif.Proof.SpecNystrom
import Verif.Proof.SpecRange
import Verif.Proof.Stab
import Verif.Proof.SvdUnique
import Verif.Proof.Weyl
import Verif.Proof.Wishart
import Verif.Proof.WithoutRepl
import Verif.Props.Adaptive
import Verif.Props.AlmostSure
import Verif.Props.AlmostSureBlocks
import Verif.Props.AlmostSureLS
import Verif.Props.Angles
import Verif.Props.Backend
import Verif.Props.BackendLR
import Verif.Props.Blocking
import Verif.Props.BlockingDrivers
import Verif.Props.ChangeVars
import Verif.Props.Contracts
import Verif.Props.Cost
import Verif.Props.Denoise
import Verif.Props.DenoiseTail
import Verif.Props.Drivers
import Verif.Props.EVD1
import Verif.Props.EVD2
import Verif.Props.EVD2Error
import Verif.Props.EVD2Tail
import Verif.Props.Embedding
import Verif.Props.EquiEVD
import Verif.Props.EquiLR
import Verif.Props.Expected
import Verif.Props.ExpectedLS
import Verif.Props.Extend
import Verif.Props.ExtendQB
import Verif.Props.ID
import Verif.Props.ID2
import Verif.Props.IDError
import Verif.Props.IDExpected
import Verif.Props.LSQR
import Verif.Props.LU
import Verif.Props.LinearEst
import Verif.Props.LowRank
import Verif.Props.LowRankTail
import Verif.Props.LsqrVar
import Verif.Props.Matmakers
import Verif.Props.Mem
import Verif.Props.Nested
import Verif.Props.NestedWitness
import Verif.Props.Oblivious
import Verif.Props.Orthonormal
import Verif.Props.PCG
import Verif.Props.Pairs
import Verif.Props.PairsDemo
import Verif.Props.PairsGaussian
import Verif.Props.PairsTail
import Verif.Props.Passes
import Verif.Props.PcSS1
import Verif.Props.PcSS2
import Verif.Props.Precond
import Verif.Props.QB2
import Verif.Props.QB2Generic
import Verif.Props.QB3
import Verif.Props.Rangefinder
import Verif.Props.Rates
import Verif.Props.RatesLS
import Verif.Props.RidgePath
import Verif.Props.Rounding
import Verif.Props.RoundingCUR
import Verif.Props.RoundingCURWitness
import Verif.Props.RoundingEVD
import Verif.Props.RoundingEVDWitness
import Verif.Props.RoundingID
import Verif.Props.RoundingIDWitness
import Verif.Props.RoundingLS
import Verif.Props.RoundingLSWitness
import Verif.Props.RoundingNys
import Verif.Props.RoundingNysWitness
import Verif.Props.RoundingOrth
import Verif.Props.RoundingOrthWitness
import Verif.Props.RoundingPCG
import Verif.Props.RoundingSPS
import Verif.Props.RoundingSPS2
import Verif.Props.RoundingSPS2Witness
import Verif.Props.RoundingSPSWitness
import Verif.Props.RoundingSPU
import Verif.Props.RoundingSVD
import Verif.Props.RoundingWitness
import Verif.Props.SJLT
import Verif.Props.SJLTDrivers
import Verif.Props.SJLTEmbed
import Verif.Props.SJLTExpect
import Verif.Props.SPO
import Verif.Props.SPOExact
import Verif.Props.SPS1
import Verif.Props.SPS2
import Verif.Props.SPS2Rates
import Verif.Props.SPSRates
import Verif.Props.SPU1
import Verif.Props.SRCT
import Verif.Props.SRCTEmbed
import Verif.Props.SRCTEntries
import Verif.Props.SSO1
import Verif.Props.SVD
import Verif.Props.SaddleOpt
import Verif.Props.Sampling
import Verif.Props.Scaling
import Verif.Props.Seeds
import Verif.Props.SparseSign
import Verif.Props.SparseSignDrivers
import Verif.Props.SparseSignEmbed
import Verif.Props.Spectral
import Verif.Props.SpectralBlocks
import Verif.Props.SpectralDemo
import Verif.Props.SpectralEVD2
import Verif.Props.SpectralPe
import Verif.Props.SpectralTail
import Verif.Props.Stats
import Verif.Props.Tolerance
import Verif.Props.Transpose
import Verif.Props.Witness
import Verif.Spec
import Verif.SpecCost
import Verif.SpecExtend
import Verif.SpecLowRank
import Verif.SpecMem
import Verif.SpecPairs
import Verif.SpecRounding
