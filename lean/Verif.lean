import Verif.Core.Res
import Verif.Lemmas.Res
import Verif.Model.RefCount
import Verif.Spec.RefCount
import Verif.Lemmas.RefCount
import Verif.Lemmas.RefCountSim
import Verif.Model.SharedPtr
import Verif.Props.RefCount
import Verif.Model.Tensor
import Verif.Spec.Index
import Verif.Lemmas.Index
import Verif.Lemmas.Access
import Verif.Props.Access
import Verif.Model.Indices
import Verif.Lemmas.Indices
import Verif.Props.Indices
import Verif.Core.Run
import Verif.Model.View
import Verif.Spec.View
import Verif.Lemmas.View
import Verif.Lemmas.Slice
import Verif.Lemmas.Slice2
import Verif.Props.View
import Verif.Core.Loop
import Verif.Lemmas.Loop
import Verif.Model.Permute
import Verif.Spec.Permute
import Verif.Lemmas.Permute
import Verif.Props.Permute
import Verif.Model.Fold
import Verif.Spec.Fold
import Verif.Lemmas.Fold
import Verif.Lemmas.Fold2
import Verif.Lemmas.Fold3
import Verif.Lemmas.Matrix
import Verif.Model.Arith
import Verif.Lemmas.Arith
import Verif.Props.Arith
import Verif.Props.Fold
import Verif.Core.Modify
import Verif.Model.TensorOps
import Verif.Spec.Diag
import Verif.Lemmas.Modify
import Verif.Lemmas.Scale
import Verif.Props.Scale
import Verif.Lemmas.Trace
import Verif.Props.Trace
import Verif.Lemmas.Kron
import Verif.Props.Kron
import Verif.Props.Dims
import Verif.Core.Double
import Verif.Model.Reduce
import Verif.Props.Reduce
import Verif.Model.Sort
import Verif.Props.Sort
import Verif.Spec.Sparse
import Verif.Model.Sparse
import Verif.Lemmas.Sparse
import Verif.Props.SparseFull
import Verif.Props.SparseArith
import Verif.Props.SparseKron
import Verif.Props.SparseCoord
import Verif.Props.SparseMult
import Verif.Props.SparseExpr
import Verif.Props.DataFile
import Verif.Props.FileOps
import Verif.Props.FileLock
import Verif.Props.Linspace
import Verif.Model.Jobs
import Verif.Props.Split
import Verif.Props.Jobs
import Verif.Model.Flags
import Verif.Props.Flags
import Verif.Model.Shift
import Verif.Props.Shift
import Verif.Spec.Rand
import Verif.Model.Rand
import Verif.Props.Rand
import Verif.Props.RandRange
import Verif.Spec.Blocks
import Verif.Model.Blocks
import Verif.Props.Blocks
import Verif.Spec.Cgs
import Verif.Model.Cgs
import Verif.Props.Cgs
import Verif.Props.CgsAbstract
import Verif.Props.CgsConv
import Verif.Props.CgsMatrix
import Verif.Spec.Expm
import Verif.Model.Expm
import Verif.Lemmas.Square
import Verif.Props.Pade
import Verif.Props.PadeError
import Verif.Props.Expm
import Verif.Props.ExpmMatrix
import Verif.Model.Power
import Verif.Props.Power
import Verif.Spec.Dft
import Verif.Model.Fftw
import Verif.Lemmas.Dft
import Verif.Props.Fftw
import Verif.Model.Svd
import Verif.Spec.Svd
import Verif.Lemmas.Svd
import Verif.Props.Svd
import Verif.Model.Eig
import Verif.Spec.Eig
import Verif.Props.Eig
import Verif.Model.BlockSvd
import Verif.Lemmas.Thin
import Verif.Lemmas.SliceMat
import Verif.Lemmas.SvdExists
import Verif.Props.BlockSvd
import Verif.Model.Arpack
import Verif.Spec.Eigs
import Verif.Props.EigsSmall
import Verif.Spec.Arpack
import Verif.Props.Arpack
import Verif.Props.EigsLarge
import Verif.Props.EigsMap
import Verif.Props.Machine
import Verif.Props.Dataset
import Verif.Props.Python
import Verif.Props.PythonData
import Verif.Props.SparseIter
import Verif.Props.Parts
import Verif.Props.Text
import Verif.Lemmas.Utf8
import Verif.Core.Float
import Verif.Lemmas.Float
import Verif.Props.FloatReduce
import Verif.Props.FloatSum
import Verif.Props.FloatLinspace
import Verif.Model.RandFloat
import Verif.Props.RandFloat
import Verif.Model.Matlab
import Verif.Spec.Matlab
import Verif.Lemmas.Matlab
import Verif.Props.Matlab
import Verif.Model.TicToc
import Verif.Props.TicToc
import Verif.Model.IsDir
import Verif.Props.IsDir
import Verif.Model.FloatCompare
import Verif.Spec.FloatCompare
import Verif.Props.FloatCompare
import Verif.Model.ArpackSort
import Verif.Lemmas.ArpackSort
import Verif.Props.ArpackSort
import Verif.Core.CFloat
import Verif.Props.CFloat
import Verif.Model.FoldMachine
import Verif.Props.FoldMachine
import Verif.Model.GemmFloat
import Verif.Lemmas.GemmFloat
import Verif.Props.GemmFloat
import Verif.Model.Threads
import Verif.Spec.Threads
import Verif.Lemmas.Threads
import Verif.Props.Threads
import Verif.Model.ViewHeap
import Verif.Spec.ViewHeap
import Verif.Lemmas.ViewHeap
import Verif.Props.ViewHeap
import Verif.Props.Network
import Verif.Props.ElemRef
import Verif.Props.ExtMem
import Verif.Props.MapMem
import Verif.Props.GemmCFloat
import Verif.Props.AllocFail
import Verif.Props.SparseFloat
import Verif.Props.SparseFl
import Verif.Props.ViewMachine
import Verif.Props.MatlabSort
import Verif.Props.JobsSave
import Verif.Props.Random
import Verif.Props.SparseFlMixed
import Verif.Model.Round
import Verif.Props.Round
import Verif.Model.Closure
import Verif.Props.Closure
import Verif.Model.PermuteMachine
import Verif.Props.PermuteMachine
import Verif.Model.LapackMachine
import Verif.Props.LapackMachine
import Verif.Model.Inplace
import Verif.Spec.Inplace
import Verif.Lemmas.Inplace
import Verif.Props.Inplace
import Verif.Model.Seed
import Verif.Props.Seed
import Verif.Model.ArpackMachine
import Verif.Props.ArpackMachine
import Verif.Model.FftwMachine
import Verif.Props.FftwMachine
import Verif.Model.SparseMachine
import Verif.Props.SparseMachine
import Verif.Model.Fused
import Verif.Props.Fused
import Verif.Model.Machines
import Verif.Spec.Machines
import Verif.Props.Machines
import Verif.Model.Counter
import Verif.Props.Counter
import Verif.Model.TensorFail
import Verif.Spec.TensorFail
import Verif.Lemmas.TensorFail
import Verif.Lemmas.TensorFailOps
import Verif.Props.TensorFail
import Verif.Props.Laws
import Verif.Props.LawsNorm
import Verif.Props.LawsView
import Verif.Props.LawsSparse
import Verif.Model.Operators
import Verif.Spec.Operators
import Verif.Props.Operators
import Verif.Props.LawsFftw
import Verif.Lemmas.FiniteResults
import Verif.Props.FiniteResults
import Verif.Lemmas.SumOrder
import Verif.Spec.SumFloat
import Verif.Props.SumFloat
import Verif.Model.IndexTensor
import Verif.Props.IndexTensor
import Verif.Spec.MtEngine
import Verif.Props.MtEngine
import Verif.Model.PowerFl
import Verif.Lemmas.PowerFl
import Verif.Spec.PowerFl
import Verif.Props.PowerFl
import Verif.Model.CgsFl
import Verif.Spec.CgsFl
import Verif.Lemmas.CgsFl
import Verif.Props.CgsFl
import Verif.Props.TensorLaws
import Verif.Spec.TraceLaws
import Verif.Props.TraceLaws
import Verif.Props.PairLaws
import Verif.Props.TraceFold
import Verif.Props.FloatSqrt
import Verif.Model.Gen
import Verif.Spec.Gen
import Verif.Props.Gen
import Verif.Props.CgsExact
import Verif.Props.Edges
import Verif.Props.PowerSwap
import Verif.Spec.Exact
import Verif.Props.ExactInt
import Verif.Props.ExactComplex
import Verif.Model.ExpmFl
import Verif.Props.ExpmFl
import Verif.Props.ExpmErr
import Verif.Props.FloatLaws
import Verif.Props.CFloatLaws
import Verif.Props.Convert
import Verif.Props.ConvertFl
import Verif.Props.Convert2
