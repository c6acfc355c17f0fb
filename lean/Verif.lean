import Verif.Runner.TheoremsRV
import Verif.Runner.TheoremsRun
import Verif.Runner.TheoremsAlu
import Verif.Runner.TheoremsLoad
import Verif.Runner.TheoremsLog
import Verif.Runner.TheoremsData
import Verif.Runner.TheoremsExecute
import Verif.Sdk.TheoremsMerkle
import Verif.Sdk.TheoremsRoot
import Verif.Sdk.TheoremsBind
import Verif.Sdk.TheoremsShutdown
import Verif.Sdk.TheoremsEvents
import Verif.Sdk.TheoremsCalls
import Verif.Sdk.TheoremsCodec
import Verif.Sdk.TheoremsCodec2
import Verif.Node.Model
import Verif.Node.SpecTree
import Verif.Node.TreeLemmas
import Verif.Node.TheoremsTree
import Verif.Node.TheoremsReduce
import Verif.Node.TheoremsAddr
import Verif.Node.TheoremsState
import Verif.Node.TheoremsEventTree
import Verif.Node.TheoremsTx
import Verif.Node.Accumulator
import Verif.Node.SpecAccum
import Verif.Node.TheoremsAccum
import Verif.Node.Matches
import Verif.Node.MatchesDelta
import Verif.Node.SpecMatches
import Verif.Node.TheoremsMatches
import Verif.Node.TheoremsFinalize
import Verif.Node.TheoremsBlockRoot
import Verif.Node.TheoremsBlocks
import Verif.Node.TheoremsConvert
import Verif.Circuits.TheoremsComplete
import Verif.Circuits.TheoremsAlu
import Verif.Circuits.TheoremsMul
import Verif.Circuits.TheoremsDiv
import Verif.Circuits.TheoremsFlow
import Verif.Circuits.TheoremsLoadStore
import Verif.Circuits.TheoremsRom
import Verif.Circuits.Ctl
import Verif.Circuits.TheoremsCtl
import Verif.Circuits.LinComb
import Verif.Circuits.SpecLinComb
import Verif.Circuits.TheoremsLinComb
import Verif.Circuits.SmallTables
import Verif.Circuits.TheoremsSmall
import Verif.Circuits.TheoremsRange
import Verif.Circuits.Check
import Verif.Circuits.Memory
import Verif.Circuits.TheoremsMemory
import Verif.Circuits.TheoremsWide
import Verif.Circuits.Registers
import Verif.Circuits.TheoremsRegisters
import Verif.Circuits.Skeleton
import Verif.Circuits.TheoremsSkeleton
import Verif.Circuits.TheoremsExpr
import Verif.Circuits.TheoremsStorage
import Verif.Recproofs.Gadgets
import Verif.Recproofs.Tree
import Verif.Recproofs.SpecTree
import Verif.Recproofs.TheoremsTree
import Verif.Recproofs.TheoremsBytes
import Verif.Recproofs.Recursion
import Verif.Recproofs.Merge
import Verif.Recproofs.TheoremsMerge
import Verif.Recproofs.Delta
import Verif.Recproofs.SpecDelta
import Verif.Recproofs.TheoremsDelta
import Verif.Recproofs.TheoremsDelta2
import Verif.Recproofs.TheoremsMatch
import Verif.Recproofs.State
import Verif.Recproofs.Block
import Verif.Recproofs.Programs
import Verif.Recproofs.SpecCommit
import Verif.Recproofs.TheoremsPrograms
import Verif.Recproofs.BlockLog
import Verif.Recproofs.TheoremsBlock
import Verif.Recproofs.TheoremsLedger
import Verif.Circuits.TheoremsPoseidon
import Verif.Circuits.TheoremsSponge
import Verif.Circuits.TheoremsDigest
import Verif.Circuits.TheoremsCommit
import Verif.Circuits.SpecMem
import Verif.Circuits.MemGen
import Verif.Circuits.MemGenLemmas
import Verif.Circuits.MemGenStep
import Verif.Circuits.MemGenTable
import Verif.Circuits.MemGenChain
import Verif.Circuits.MemGenHist
import Verif.Circuits.MemGenMain
import Verif.Circuits.MemGenSat
import Verif.Circuits.MemGenCtl
import Verif.Circuits.MemGenCtl2
import Verif.Circuits.MemGenCtl3
import Verif.Circuits.TheoremsMemGen
import Verif.Circuits.RegGen
import Verif.Circuits.SpecReg
import Verif.Circuits.RegGenStep
import Verif.Circuits.RegGenTable
import Verif.Circuits.RegGenSort
import Verif.Circuits.RegGenChain
import Verif.Circuits.TheoremsRegGen
import Verif.Circuits.Prover
import Verif.Circuits.ProverRange
import Verif.Circuits.ProverCpu
import Verif.Circuits.ProverFlow
import Verif.Circuits.ProverTapes
import Verif.Circuits.ProverMain
import Verif.Circuits.TheoremsProver
import Verif.Circuits.TheoremsForge
import Verif.Circuits.TheoremsAccepted
import Verif.Circuits.Shrink
import Verif.Circuits.ProgramId
import Verif.Circuits.TheoremsProgramId
import Verif.Circuits.Air
import Verif.Circuits.TheoremsAir
import Verif.Circuits.Degree
import Verif.Circuits.TheoremsDegree
import Verif.Circuits.TheoremsTableCheck
import Verif.Circuits.Plumbing
import Verif.Circuits.Batch
import Verif.Circuits.TheoremsBatch
import Verif.Circuits.TheoremsBatchCheck
import Verif.Signatures.Model
import Verif.Signatures.Theorems
import Verif.Apps.Model
import Verif.Apps.Spec
import Verif.Apps.Serve
import Verif.Apps.Theorems
import Verif.Apps.Consent
import Verif.Sdk.TheoremsReplay
import Verif.Recproofs.TheoremsIndices
import Verif.Circuits.TheoremsPlumbing
import Verif.Circuits.TheoremsPermutation
import Verif.Circuits.TheoremsRecursive
import Verif.Circuits.TheoremsRecursiveBatch
import Verif.Circuits.TheoremsProveAll
import Verif.Circuits.TheoremsVerifierSound
import Verif.Circuits.TheoremsBatchSound
import Verif.Circuits.ProveBatch
import Verif.Circuits.TheoremsProveBatch
import Verif.Circuits.TheoremsDebug
import Verif.Sdk.CastList
import Verif.Sdk.Bundle
import Verif.Sdk.TheoremsBundle
import Verif.Sdk.BundleReader
import Verif.Sdk.TheoremsBundleExists
import Verif.Sdk.IdText
import Verif.Sdk.TheoremsIdText
import Verif.Apps.Native
import Verif.Apps.SpecNative
import Verif.Apps.TheoremsNative
import Verif.Apps.TheoremsNativeMain
import Verif.Apps.TheoremsInputTape
import Verif.Apps.TheoremsWalletMain
