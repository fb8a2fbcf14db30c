import Verif.Act.Doubled
import Verif.Act.PRelu
import Verif.Act.Unpool
import Verif.Alloc.Device
import Verif.Alloc.Full
import Verif.Alloc.Handle
import Verif.Alloc.Inv
import Verif.Alloc.Layout
import Verif.Alloc.Merge
import Verif.Alloc.Model
import Verif.Alloc.Ops
import Verif.Alloc.Props
import Verif.Alloc.Struct
import Verif.BatchNorm.Lemmas
import Verif.BatchNorm.Model
import Verif.BatchNorm.Props
import Verif.BcastTo.Props
import Verif.BinWeight.Connect
import Verif.BinWeight.Model
import Verif.Cache.Model
import Verif.Cache.Prefetch
import Verif.Cache.Props
import Verif.Context.Model
import Verif.Context.Props
import Verif.Data.CacheProps
import Verif.Data.FileProps
import Verif.Data.Iterator
import Verif.Data.Lemmas
import Verif.Data.Props
import Verif.Data.Simple
import Verif.Data.Sources
import Verif.Data.Stream
import Verif.Data.Thread
import Verif.Detect.Model
import Verif.Detect.Props
import Verif.Dlpack.Convert
import Verif.Dlpack.Lifecycle
import Verif.Dlpack.Props
import Verif.Dot.Dot
import Verif.Einsum.Model
import Verif.Einsum.Out
import Verif.Einsum.Props
import Verif.Elem.Affine
import Verif.Elem.BatchMatmul
import Verif.Elem.BatchMatmulProps
import Verif.Elem.Bilinear
import Verif.Elem.Conv
import Verif.Elem.ConvFormula
import Verif.Elem.ConvLoops
import Verif.Elem.ConvProps
import Verif.Elem.ConvSetup
import Verif.Elem.CrossEntropy
import Verif.Elem.Cum
import Verif.Elem.CumProps
import Verif.Elem.Loss
import Verif.Elem.Patches
import Verif.Elem.Pooling
import Verif.Elem.PoolingProps
import Verif.Elem.Quantize
import Verif.Elem.Quantize2
import Verif.Elem.Quantize3
import Verif.Elem.Reduce
import Verif.Elem.ReduceProps
import Verif.Elem.SearchSorted
import Verif.Elem.Slices
import Verif.Elem.Softmax
import Verif.Elem.Sort
import Verif.Elem.TopK
import Verif.Elem.Unary
import Verif.Elem.Vjp
import Verif.Fn.Base
import Verif.Fn.Binary
import Verif.Fn.Broadcast
import Verif.Fn.Chunk
import Verif.Fn.ChunkProps
import Verif.Fn.Lookup
import Verif.Fn.Loop
import Verif.Fn.Masked
import Verif.Fn.Pad
import Verif.Fn.Props
import Verif.Fn.Select
import Verif.Fn.SelectNd
import Verif.Fn.Separable
import Verif.Fn.Tile
import Verif.Fn.Transpose
import Verif.Framework.Model
import Verif.Framework.Props
import Verif.Framework.Resume
import Verif.Func.Wrapper
import Verif.Func.WrapperProps
import Verif.Grad2.Binary
import Verif.Grad2.Unary
import Verif.Grad2.UnaryProps
import Verif.Graph.Backward
import Verif.Graph.Build
import Verif.Graph.Clear
import Verif.Graph.ClearExamples
import Verif.Graph.ClearProps
import Verif.Graph.ForwardProps
import Verif.Graph.Grad
import Verif.Graph.GradDeriv
import Verif.Graph.GradExamples
import Verif.Graph.GradLemmas
import Verif.Graph.GradMain
import Verif.Graph.GradProps
import Verif.Graph.Model
import Verif.Graph.Refs
import Verif.Graph.Spec
import Verif.Graph.Visit
import Verif.Graph.Visit2
import Verif.GraphConv.Fold
import Verif.GraphConv.FoldProps
import Verif.GraphConv.Lemmas
import Verif.GraphConv.Model
import Verif.GraphConv.Props
import Verif.GraphDef.Batch
import Verif.GraphDef.BatchProps
import Verif.GraphDef.Load
import Verif.GraphDef.Model
import Verif.GraphDef.Names
import Verif.GraphDef.NamesProps
import Verif.GraphDef.Optim
import Verif.GraphDef.OptimProps
import Verif.GraphDef.Props
import Verif.GraphDef.Scopes
import Verif.GraphDef.Spec
import Verif.GraphDef.Traverse
import Verif.HalfFloat.Lemmas
import Verif.HalfFloat.Model
import Verif.HalfFloat.Props
import Verif.HalfFloat.Round
import Verif.HalfFloat.Spec
import Verif.Hooks.Model
import Verif.Hooks.Props
import Verif.Imper.Model
import Verif.Imper.Props
import Verif.Index.Lemmas
import Verif.Index.Model
import Verif.Index.Pairs
import Verif.Index.Props
import Verif.Index.Spec
import Verif.Inplace.Model
import Verif.Inplace.Props
import Verif.Inq.Model
import Verif.Inq.Props
import Verif.IntOps.Props
import Verif.Interp.Axis
import Verif.Interp.Final
import Verif.Interp.Model
import Verif.Interp.Props
import Verif.Interp.Weighted
import Verif.LR.Model
import Verif.LR.Props
import Verif.Linalg.Batch
import Verif.Linalg.Calc
import Verif.Linalg.Det
import Verif.Lms.Acct
import Verif.Lms.Acct2
import Verif.Lms.Acct3
import Verif.Lms.Exec
import Verif.Lms.Exec2
import Verif.Lms.Exec3
import Verif.Lms.Model
import Verif.Lms.PreOk
import Verif.Lms.Preclear
import Verif.Lms.Props
import Verif.Lms.Spec
import Verif.Lms.Term
import Verif.Lms.Trace
import Verif.LossScale.Model
import Verif.LossScale.Props
import Verif.Mat.Diag
import Verif.Mat.Meshgrid
import Verif.Mat.Trilu
import Verif.MaxPoolBwd.Model
import Verif.ModuleTree.Attr
import Verif.ModuleTree.Lemmas
import Verif.ModuleTree.Model
import Verif.ModuleTree.Props
import Verif.ModuleTree.Round
import Verif.ModuleTree.Spec
import Verif.Monitor.Model
import Verif.Monitor.Props
import Verif.NAry.Create
import Verif.NAry.NAry
import Verif.ND.Indices
import Verif.ND.Model
import Verif.ND.Props
import Verif.NNGrad.Dfs
import Verif.NNGrad.Examples
import Verif.NNGrad.Folds
import Verif.NNGrad.Main
import Verif.NNGrad.Model
import Verif.NNGrad.NeedGrad
import Verif.NNGrad.Props
import Verif.NNGrad.Weights
import Verif.Native.ParamDir
import Verif.Native.ParamDirProps
import Verif.Native.Registry
import Verif.Nnb.Fixed
import Verif.Nnb.Lemmas
import Verif.Nnb.Model
import Verif.Nnb.Props
import Verif.Nnb.Spec
import Verif.Norm.Adapter
import Verif.Norm.Affine
import Verif.Norm.Core
import Verif.Norm.Group
import Verif.Norm.Instance
import Verif.Norm.Layer
import Verif.Norm.Layout
import Verif.Norm.MeanSub
import Verif.Norm.Model
import Verif.Norm.Tensor
import Verif.Norm.View
import Verif.NormFn.Bcast
import Verif.NormFn.Chain
import Verif.NormFn.ClipGrad
import Verif.NormFn.Gap
import Verif.NormFn.Norm
import Verif.NormFn.NormNorm
import Verif.NormFn.WeightNorm
import Verif.OnnxNms.Model
import Verif.OnnxNms.Props
import Verif.Params.Create
import Verif.Params.Heap
import Verif.Params.Lemmas
import Verif.Params.Lemmas2
import Verif.Params.Lemmas3
import Verif.Params.Lemmas4
import Verif.Params.Model
import Verif.Params.Props
import Verif.Params.Spec
import Verif.PatchCorr.Props
import Verif.Rand.Choice
import Verif.Rand.ChoiceProps
import Verif.Rand.CropFlip
import Verif.Rand.Erase
import Verif.Rand.Model
import Verif.Rand.Replay
import Verif.Rand.Samples
import Verif.Rand.Shift
import Verif.Rand.Spec
import Verif.Rand.Walk
import Verif.Recompute.Examples
import Verif.Recompute.Model
import Verif.Recompute.Proof
import Verif.Recompute.Props
import Verif.Recompute.Visit
import Verif.Resize.Model
import Verif.Resize.Nearest
import Verif.Rnn.Lemmas
import Verif.Rnn.Model
import Verif.Rnn.Props
import Verif.Roi.Props
import Verif.SaveBuffer.Assign
import Verif.SaveBuffer.Lemmas
import Verif.SaveBuffer.Model
import Verif.SaveBuffer.Props
import Verif.SaveBuffer.Spec
import Verif.Select.Bool
import Verif.Select.BoolProps
import Verif.Select.Unique
import Verif.Select.UniqueProps
import Verif.SepConv.Forward
import Verif.SepConv.GradKh
import Verif.SepConv.GradKv
import Verif.SepConv.GradX
import Verif.Singleton.Manager
import Verif.Singleton.Ones
import Verif.Solver.AdaBelief
import Verif.Solver.Arrays
import Verif.Solver.Count
import Verif.Solver.History
import Verif.Solver.Lemmas
import Verif.Solver.Lift
import Verif.Solver.Loop
import Verif.Solver.Model
import Verif.Solver.Registry
import Verif.Solver.RuleProps
import Verif.Solver.Rules
import Verif.Solver.SaveLoad
import Verif.Solver.Update
import Verif.Spectral.Model
import Verif.Stft.Conv1
import Verif.Stft.Dft
import Verif.Stft.Grad
import Verif.Stft.Model
import Verif.Stft.Props
import Verif.Stft.Refute
import Verif.Stft.Setup
import Verif.Store.Inv
import Verif.Store.Model
import Verif.Store.Props
import Verif.Synced.Access
import Verif.Synced.Cast
import Verif.Synced.CastSpec
import Verif.Synced.Fill
import Verif.Synced.Flags
import Verif.Synced.Inv
import Verif.Synced.Materialise
import Verif.Synced.Model
import Verif.Synced.Narrow
import Verif.Synced.Props
import Verif.Synced.Refine
import Verif.Synced.Spec
import Verif.Synced.Sync
import Verif.Synced.Tree
import Verif.Synced.Walk
import Verif.Train.Model
import Verif.Train.Props
import Verif.VAlloc.Acct
import Verif.VAlloc.AllocInv
import Verif.VAlloc.Inv
import Verif.VAlloc.Model
import Verif.VAlloc.Props
import Verif.Vat.FusedBn
import Verif.Vat.Noise
import Verif.Warp.Affine
import Verif.Warp.Grad
import Verif.Warp.Model
import Verif.Warp.Pos
import Verif.Warp.Props
import Verif.WarpFlow.Props
