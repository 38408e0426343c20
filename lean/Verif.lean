import Verif.Store
import Verif.Sem
import Verif.StoreLemmas
import Verif.BF
import Verif.BFInv
import Verif.BFReduce
import Verif.BFRun
import Verif.Kernels
import Verif.KernelLaws
import Verif.Ops
import Verif.OpsSpec
import Verif.Refs
import Verif.Multi
import Verif.MkNode
import Verif.GC
import Verif.Cache
import Verif.Spec
import Verif.DF
import Verif.User
import Verif.Mgr
import Verif.MgrInv
import Verif.MgrOps
import Verif.Api
import Verif.ApiQuant
import Verif.ApiParts
import Verif.ApiVars
import Verif.ApiAssoc
import Verif.ApiAssoc2
import Verif.ApiAssoc3
import Verif.ApiAssoc4
import Verif.ApiMisc
import Verif.Session
import Verif.Demo
import Verif.Props1
import Verif.Props2
import Verif.Props3
import Verif.Props4
import Verif.Props5
import Verif.Props6
import Verif.Props7
import Verif.Bits
import Verif.Rng
import Verif.Interact
import Verif.HashTable
import Verif.NodeManager
import Verif.Cpp
import Verif.Walk
import Verif.Subfn
import Verif.Support
import Verif.Satisfy
import Verif.Fraction
import Verif.ApiQuery
import Verif.ApiEng
import Verif.EngRun
import Verif.Cofactor
import Verif.Swap
import Verif.Nest
import Verif.Restrict
import Verif.Reduce
import Verif.ApiReduce
import Verif.ApiPair
import Verif.Props8
import Verif.Subst
import Verif.ApiSubst
import Verif.Props9
import Verif.VarSubst
import Verif.ApiVarSubst
import Verif.QuantBF
import Verif.QuantBFInv
import Verif.QuantBFApp
import Verif.QuantBFRed
import Verif.QuantBFOk
import Verif.ApiQuantBF
import Verif.Props10
import Verif.DfModel
import Verif.DfInv
import Verif.DfExchange
import Verif.DfSwap
import Verif.Block
import Verif.BlockInv
import Verif.Sift
import Verif.SiftAlg
import Verif.SiftTree
import Verif.DfReorder
import Verif.Props11
import Verif.Props12
import Verif.Dump
import Verif.DumpSem
import Verif.DumpRound
import Verif.DumpLock
import Verif.DumpFile
import Verif.DumpApi
import Verif.MemModel
import Verif.MemArith
import Verif.MemList
import Verif.MemRing
import Verif.MemInv
import Verif.MemStep
import Verif.MemOps
import Verif.MemGrow
import Verif.MemApi
import Verif.MemHist
import Verif.Props13
import Verif.Pipeline
import Verif.PipelineOk
import Verif.PipelineApi
import Verif.Props14
import Verif.Relocate
import Verif.MoveMgr
import Verif.DfRealloc
import Verif.DfAux
import Verif.InteractInit
import Verif.SiftPart
import Verif.DfMain
import Verif.DfEnv
import Verif.Props15
import Verif.Repack
import Verif.RepackMgr
import Verif.Props16
import Verif.Props17
import Verif.BfModel
import Verif.BfSim
import Verif.BfGc
import Verif.BfSwap
import Verif.BfZero
import Verif.BfPhase
import Verif.BfClean
import Verif.BfPack
import Verif.BfSift
import Verif.BfMgr
import Verif.BfEnv
import Verif.Props18
import Verif.Count
import Verif.Props19
import Verif.SiftMono
import Verif.DfMono
import Verif.DfLess
import Verif.BfLess
import Verif.Props20
import Verif.BfWindow
import Verif.BfReal
import Verif.BfWin
import Verif.BfWin2
import Verif.BfWin3
import Verif.BfRec
import Verif.BfPackM
import Verif.BfVarWin
import Verif.BfWMgr
import Verif.Props21
import Verif.FnProfile
import Verif.FnProfile2
import Verif.FnProfile3
import Verif.FnProfile4
import Verif.Props22
import Verif.PrintSpec
import Verif.Print
import Verif.PrintLex
import Verif.FnPrint
import Verif.PrintBlow
import Verif.PrintMake
import Verif.Props23
import Verif.MemRec
import Verif.MemRecOk
import Verif.MemRecOps
import Verif.MemRecHist
import Verif.Props24
import Verif.PrintProfile
import Verif.Props25
import Verif.CppOps
import Verif.Props26
import Verif.Ledger
import Verif.LedgerOk
import Verif.LedgerMgr
import Verif.LedgerRun
import Verif.Props27
import Verif.ArraysSpec
import Verif.Arrays
import Verif.ArraysOk
import Verif.ArraysRun
import Verif.Props28
import Verif.Check
import Verif.CheckOk
import Verif.CheckReorder
import Verif.Props29
import Verif.RepackBins
import Verif.Props30
import Verif.HashWalk
import Verif.GCBins
import Verif.Props31
import Verif.Props32
import Verif.CheckDf
import Verif.Props33
