import Verif.Model.SortedArray
import Verif.Props.SortedArray
import Verif.Model.Traversal
import Verif.Props.Traversal
import Verif.Props.MergeTable
import Verif.Model.MergeArrays1
import Verif.Props.MergeArrays1
import Verif.Model.Permutation
import Verif.Props.Permutation
import Verif.Model.Options
import Verif.Props.Options
import Verif.Model.Orders
import Verif.Props.Orders
import Verif.Lib.Sweep
import Verif.Model.CSR
import Verif.Model.GaussSeidel
import Verif.Spec.DenseGS
import Verif.Props.GaussSeidel
import Verif.Props.GaussSeidel4
import Verif.Model.Smoother
import Verif.Spec.SmootherContract
import Verif.Props.Smoother
import Verif.Spec.Multigrid
import Verif.Model.AMGMatrix
import Verif.Props.AMGMatrix
import Verif.Model.AMGMatrix2
import Verif.Props.AMGMatrix2
import Verif.Props.AMGTheory
import Verif.Model.LinearSolver
import Verif.Props.LinearSolver
import Verif.Model.BackgroundThread
import Verif.Props.BackgroundThread
import Verif.Spec.Transfer
import Verif.Model.DOFMap
import Verif.Props.DOFMap
import Verif.Model.MergeArrays
import Verif.Props.MergeArrays
import Verif.Model.SparseMM
import Verif.Props.SparseMM
import Verif.Model.SparseLA
import Verif.Props.SparseLA
import Verif.Model.DynBlock
import Verif.Props.DynBlock
import Verif.Model.Exchange
import Verif.Props.Exchange
import Verif.Model.DCC
import Verif.Props.DCC
import Verif.Model.Hybrid
import Verif.Props.Hybrid
import Verif.Model.HybridSmoother
import Verif.Props.HybridSmoother
import Verif.Props.HybridGS
import Verif.Model.HybridMatrix
import Verif.Props.HybridMatrix
import Verif.Props.HybridEnergy
import Verif.Model.AllReduce
import Verif.Props.AllReduce
import Verif.Props.HybridEnergy2
import Verif.Model.ModDiag
import Verif.Props.ModDiag
import Verif.Props.ModDiag2
import Verif.Props.ModDiag3
import Verif.Model.SPW
import Verif.Props.SPW
import Verif.Props.SPW2
import Verif.Props.SPW3
import Verif.Props.SPW4
import Verif.Props.SPW5
import Verif.Model.EQC
import Verif.Props.EQC
import Verif.Props.EQC2
import Verif.Props.EQC3
import Verif.Props.EQC4
import Verif.Props.EQC5
import Verif.Props.EQC6
import Verif.Props.EQC7
import Verif.Props.EQC8
import Verif.Props.EQC9
import Verif.Model.Elast
import Verif.Spec.RigidMotion
import Verif.Props.Elast
import Verif.Props.Elast2
import Verif.Model.MapData
import Verif.Spec.AuxEnergy
import Verif.Props.MapData
import Verif.Props.MapData2
import Verif.Props.MapData3
import Verif.Model.SProl
import Verif.Props.SProl
import Verif.Props.SProl2
import Verif.Props.SProl3
import Verif.Props.SProl4
import Verif.Props.Elast3
import Verif.Props.Exchange2
import Verif.Props.RedTab
import Verif.Props.RedTab2
import Verif.Props.RedTab3
import Verif.Props.RedTab4
import Verif.Model.BTM
import Verif.Props.BTM
import Verif.Props.BTM2
import Verif.Props.BTM3
import Verif.Props.BTM4
import Verif.Props.BTM5
import Verif.Props.BTM6
import Verif.Props.BTM7
import Verif.Props.BTM8
import Verif.Props.BTM9
import Verif.Props.BTM10
import Verif.Model.NodalData
import Verif.Props.NodalData
import Verif.Props.NodalData2
import Verif.Props.NodalData3
import Verif.Props.NodalData4
import Verif.Model.CoarseMap
import Verif.Props.CoarseMap
import Verif.Props.CoarseMap2
import Verif.Props.CoarseMap3
import Verif.Props.CoarseMap4
import Verif.Props.CoarseMap5
import Verif.Props.CoarseMap6
import Verif.Model.MapEdges
import Verif.Props.MapEdges
import Verif.Props.MapEdges2
import Verif.Props.MapEdges3
import Verif.Props.MapEdges4
import Verif.Props.MapEdges5
import Verif.Props.MapEdges6
import Verif.Props.MapEdges7
import Verif.Props.MapEdges8
import Verif.Props.MapEdges9
import Verif.Props.MapEdges10
import Verif.Props.MapEdges11
import Verif.Props.MapEdges12
import Verif.Spec.BlockGS
import Verif.Model.BlockGS
import Verif.Props.BlockGS
import Verif.Props.BlockGS2
import Verif.Lib.Interleave
import Verif.Model.BlockPar
import Verif.Props.BlockGS3
import Verif.Props.BlockGS4
import Verif.Props.BlockGS5
import Verif.Model.LocBlock
import Verif.Props.LocBlock
import Verif.Props.LocBlock2
import Verif.Props.LocBlock3
import Verif.Props.LocBlock4
import Verif.Props.LocBlock5
import Verif.Props.LocBlockNO
import Verif.Props.LocBlockNO2
import Verif.Props.LocBlockNO3
import Verif.Props.LocBlockNO4
import Verif.Props.LocBlockNO5
import Verif.Props.LocBlockNO6
import Verif.Props.LocBlockNO7
import Verif.Model.HybridBS
import Verif.Props.HybridBS
import Verif.Props.HybridBS2
import Verif.Props.HybridBS3
import Verif.Spec.RowClasses
import Verif.Model.DynSmoother
import Verif.Props.DynSmoother
import Verif.Props.DynSmoother2
import Verif.Props.DynSmoother3
import Verif.Props.DynSmoother4
import Verif.Props.DynSmoother5
import Verif.Props.DynSmoother6
import Verif.Props.HybridPattern
import Verif.Model.HybridDyn
import Verif.Props.HybridDyn
import Verif.Props.HybridDyn2
import Verif.Props.HybridDyn3
import Verif.Props.HybridDyn4
import Verif.Props.HybridDyn5
import Verif.Props.HybridDyn6
import Verif.Model.CtrMap
import Verif.Props.CtrMap
import Verif.Props.CtrMap2
import Verif.Props.CtrMap3
import Verif.Props.CtrMap4
import Verif.Props.CtrMap5
import Verif.Props.CtrMap6
import Verif.Props.CtrMap7
import Verif.Model.GridCtr
import Verif.Props.GridCtr
import Verif.Props.GridCtr2
import Verif.Props.GridCtr3
import Verif.Props.GridCtrV
import Verif.Props.GridCtr4
import Verif.Props.GridCtr5
import Verif.Props.GridCtr6
import Verif.Props.GridCtr7
import Verif.Props.GridCtr8
import Verif.Model.MISAgg
import Verif.Spec.Agglomerates
import Verif.Props.MISAgg1
import Verif.Props.MISAgg2
import Verif.Props.MISAgg3
import Verif.Props.MISAgg4
import Verif.Props.MISAgg5
import Verif.Model.AMGPC
import Verif.Spec.PseudoInverse
import Verif.Spec.CoarseSolve
import Verif.Spec.JacobiOK
import Verif.Props.AMGPC1
import Verif.Props.AMGPC2
import Verif.Props.AMGPC3
import Verif.Props.AMGPC4
import Verif.Props.AMGPC5
import Verif.Model.CoarseMapSV
import Verif.Props.CoarseMapSV1
import Verif.Props.CoarseMapSV2
import Verif.Props.CoarseMapSV3
import Verif.Props.CoarseMapSV4
import Verif.Props.CoarseMapSV5
import Verif.Props.CoarseMapSV6
import Verif.Props.CoarseMapSV7
import Verif.Model.DofMaps
import Verif.Spec.DofNumbering
import Verif.Props.DofMaps1
import Verif.Props.DofMaps2
import Verif.Props.DofMaps3
import Verif.Model.DofMesh
import Verif.Props.DofMesh1
import Verif.Props.DofMesh2
import Verif.Props.DofMesh3
import Verif.Props.DofMesh4
import Verif.Spec.Embedding
import Verif.Model.Embedding
import Verif.Props.Embedding1
import Verif.Props.Embedding2
import Verif.Props.Embedding3
import Verif.Props.Embedding4
import Verif.Model.LevelCtrl
import Verif.Spec.Levels
import Verif.Props.LevelCtrl1
import Verif.Props.LevelCtrl2
import Verif.Props.LevelCtrl3
import Verif.Props.LevelCtrl4
import Verif.Props.LevelCtrl5
import Verif.Spec.Loops
import Verif.Model.Loops
import Verif.Model.LoopMap
import Verif.Model.LoopBuckets
import Verif.Props.Loops1
import Verif.Props.Loops2
import Verif.Props.Loops3
import Verif.Props.Loops4
import Verif.Props.Loops5
import Verif.Props.Loops6
import Verif.Props.Loops7
import Verif.Props.Loops8
import Verif.Spec.SharedTables
import Verif.Spec.Executions
import Verif.Model.LoopTab
import Verif.Props.LoopTab1
import Verif.Props.LoopTab2
import Verif.Props.LoopTab3
import Verif.Props.LoopTab4
import Verif.Props.LoopTab5
import Verif.Model.Curl
import Verif.Props.Curl1
import Verif.Props.Curl2
import Verif.Props.Curl3
import Verif.Props.Curl4
import Verif.Props.Curl5
import Verif.Props.Curl6
import Verif.Props.Curl7
import Verif.Props.Curl8
import Verif.Model.NCProl
import Verif.Spec.Divergence
import Verif.Props.NCProl1
import Verif.Props.NCProl2
import Verif.Props.NCProl3
import Verif.Props.NCProl4
import Verif.Props.NCProl5
import Verif.Props.NCProl6
import Verif.Props.NCProl7
import Verif.Props.NCProl8
import Verif.Props.NCProl9
import Verif.Model.PresVec
import Verif.Props.PresVec1
import Verif.Props.PresVec2
import Verif.Props.PresVec3
import Verif.Props.PresVec4
import Verif.Props.PresVec5
import Verif.Props.PresVec6
import Verif.Spec.EdgeFlow
import Verif.Model.HProl
import Verif.Props.HProl1
import Verif.Props.HProl2
import Verif.Props.HProl3
import Verif.Props.HProl4
import Verif.Props.HProl5
import Verif.Props.HProl6
import Verif.Props.HProl7
import Verif.Props.HProl8
import Verif.Model.SetupLog
import Verif.Spec.AllRuns
import Verif.Props.SetupLog1
import Verif.Props.SetupLog2
import Verif.Props.SetupLog3
import Verif.Props.SetupLog4
import Verif.Model.LoopSort
import Verif.Spec.Walks
import Verif.Props.LoopSort1
import Verif.Props.LoopSort2
import Verif.Props.LoopSort3
import Verif.Props.LoopSort4
import Verif.Props.LoopSort5
import Verif.Props.LoopSort6
import Verif.Model.FacetLoops
import Verif.Props.FacetLoops1
import Verif.Props.FacetLoops2
import Verif.Props.FacetLoops3
import Verif.Model.FacetAux
import Verif.Spec.Relevant
import Verif.Props.FacetAux1
import Verif.Props.FacetAux2
import Verif.Props.FacetAux3
import Verif.Props.FacetAux4
import Verif.Model.MakeLoop
import Verif.Props.MakeLoop1
import Verif.Props.MakeLoop2
import Verif.Props.MakeLoop3
import Verif.Model.FreeNodes
import Verif.Props.FreeNodes1
import Verif.Props.FreeNodes2
import Verif.Model.GSBlocks
import Verif.Props.GSBlocks1
import Verif.Props.GSBlocks2
import Verif.Props.GSBlocks3
import Verif.Props.GSBlocks4
import Verif.Model.BSThree
import Verif.Props.BSThree
import Verif.Model.P2Emb
import Verif.Props.P2Emb1
import Verif.Props.P2Emb2
import Verif.Props.P2Emb3
import Verif.Model.LoopCtr
import Verif.Props.LoopCtr1
import Verif.Props.LoopCtr2
import Verif.Model.EdgeDofs
import Verif.Props.EdgeDofs
