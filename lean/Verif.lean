import Verif.Tree
import Verif.Node
import Verif.Model.Preorder
import Verif.Model.Postorder
import Verif.Model.Inorder
import Verif.Model.Bfs
import Verif.Model.Leaves
import Verif.Model.AtPath
import Verif.Model.BfsCache
import Verif.Model.BfsCtx
import Verif.Model.Collection
import Verif.Spec.Pipeline
import Verif.Spec.Collection
import Verif.Model.Pipeline
import Verif.Model.PipelineApi
import Verif.Spec.Chain
import Verif.Model.Chain
import Verif.Model.CollectionPipeline
import Verif.Model.CollectionApi
import Verif.Lemmas.Decor
import Verif.Lemmas.Located
import Verif.Lemmas.LevelOrder
import Verif.Lemmas.Positions
import Verif.Lemmas.Preorder
import Verif.Lemmas.Postorder
import Verif.Lemmas.Inorder
import Verif.Lemmas.Bfs
import Verif.Lemmas.Leaves
import Verif.Lemmas.BfsCache
import Verif.Lemmas.BfsAnc
import Verif.Lemmas.BfsCtx
import Verif.Lemmas.BfsWide
import Verif.Lemmas.LeavesMid
import Verif.Lemmas.LeavesAncFirst
import Verif.Lemmas.LeavesAncMid
import Verif.Lemmas.Collection
import Verif.Lemmas.Visit
import Verif.Lemmas.PipeStages
import Verif.Lemmas.PipeSources
import Verif.Lemmas.PipeEnds
import Verif.Lemmas.PipeBinEnds
import Verif.Lemmas.PipeRun
import Verif.Lemmas.PipeSpec
import Verif.Lemmas.PipeMapPath
import Verif.Lemmas.PipeStart
import Verif.Lemmas.PipePruned
import Verif.Lemmas.Chain
import Verif.Lemmas.CollSource
import Verif.Lemmas.CollCalls
import Verif.Lemmas.CollFrames
import Verif.Lemmas.CollSim
import Verif.Lemmas.CollEval
import Verif.Lemmas.CollRun
import Verif.Lemmas.CollSpec
import Verif.Props.Samples
import Verif.Props.DepthFirst
import Verif.Props.BreadthFirst
import Verif.Props.BreadthFirstAnc
import Verif.Props.Positions
import Verif.Props.Leaves
import Verif.Props.LeavesMid
import Verif.Props.LeavesAncMid
import Verif.Props.Attach
import Verif.Props.BreadthFirstCtx
import Verif.Props.Finished
import Verif.Props.Collection
import Verif.Props.Pipeline
import Verif.Props.PipelinePaths
import Verif.Props.Chain
import Verif.Props.Conformance
import Verif.Props.CollectionPipeline
import Verif.Model.Edit
import Verif.Spec.Edit
import Verif.Lemmas.Edit
import Verif.Lemmas.EditCut
import Verif.Props.Edit
import Verif.Lemmas.Memory
import Verif.Props.Memory
import Verif.Model.MutRef
import Verif.Model.Drive
import Verif.Spec.Cells
import Verif.Spec.Drive
import Verif.Lemmas.MutRef
import Verif.Lemmas.MutSlice
import Verif.Lemmas.Drive
import Verif.Props.MutRef
import Verif.Props.MutSlice
import Verif.Props.CrossApi
import Verif.Props.Drive
import Verif.Props.Lazy
import Verif.Model.Handles
import Verif.Lemmas.Handles
import Verif.Props.Handles
import Verif.Model.CacheDrops
import Verif.Lemmas.CacheDrops
import Verif.Props.CacheDrops
import Verif.Model.Poll
import Verif.Lemmas.Poll
import Verif.Lemmas.PollLeaves
import Verif.Props.Poll
import Verif.Spec.MutPipe
import Verif.Model.MutPipe
import Verif.Lemmas.MutPipe
import Verif.Lemmas.MutPath
import Verif.Props.MutPipe
import Verif.Props.MutPath
import Verif.Model.MutColl
import Verif.Lemmas.MutColl
import Verif.Props.MutColl
import Verif.Lemmas.BfsMemory
import Verif.Props.BfsMemory
import Verif.Model.SliceEdit
import Verif.Lemmas.SliceEdit
import Verif.Lemmas.SliceEditAnc
import Verif.Lemmas.SliceEditBfs
import Verif.Lemmas.SliceEditIn
import Verif.Props.SliceEdit
import Verif.Lemmas.SliceEditCtx
import Verif.Lemmas.SliceEditBfsCtx
import Verif.Props.SliceEditCtx
import Verif.Props.EditIgnored
import Verif.Model.Exchange
import Verif.Lemmas.ExchangeBfs
import Verif.Lemmas.Exchange
import Verif.Lemmas.ExchangeColl
import Verif.Lemmas.ExchangeCtx
import Verif.Props.Exchange
import Verif.Props.ExchangeColl
import Verif.Props.ExchangeLeaves
import Verif.Model.Uninit
import Verif.Lemmas.Uninit
import Verif.Props.Tour
import Verif.Props.TourMore
import Verif.Props.FailGet
import Verif.Props.Flaky
import Verif.Props.FlakyMid
import Verif.Props.LazyBin
import Verif.Props.LazyIn
import Verif.Props.PollColl
import Verif.Props.PathBufChain
import Verif.Props.Rounds
import Verif.Props.RoundsCtx
import Verif.Props.RoundsColl
import Verif.Props.Shared
import Verif.Props.SharedColl
import Verif.Props.SharedPlain
import Verif.Props.SharedCtx
import Verif.Props.SharedPost
import Verif.Props.SharedIn
import Verif.Props.SharedWide
import Verif.Props.SharedLeaf
import Verif.Props.SharedWideLeaf
import Verif.Props.SharedWidePlain
import Verif.Props.SharedInPlain
import Verif.Props.SharedCtxPlain
import Verif.Props.SharedInCtxPlain
import Verif.Props.SharedPostPlain
import Verif.Props.SharedWideCtxPlain
import Verif.Props.SharedCollPlain
import Verif.Props.Brackets
import Verif.Props.Uninit
import Verif.Model.PathBuf
import Verif.Spec.PathBuf
import Verif.Lemmas.PathBuf
import Verif.Props.PathBuf
import Verif.Model.LazyPipe
import Verif.Lemmas.LazyPipe
import Verif.Props.LazyPipe
import Verif.Spec.Peek
import Verif.Lemmas.Peek
import Verif.Props.Peek
import Verif.Spec.Fail
import Verif.Model.Fail
import Verif.Lemmas.Fail
import Verif.Lemmas.FailTrees
import Verif.Lemmas.FailIn
import Verif.Lemmas.FailCrop
import Verif.Lemmas.FailCropCtx
import Verif.Lemmas.FailCropBin
import Verif.Props.Fail
import Verif.Spec.FailAfter
import Verif.Lemmas.FailAfter
import Verif.Lemmas.FailAfterCtx
import Verif.Lemmas.FailAfterFit
import Verif.Props.FailAfter
import Verif.Model.CollChain
import Verif.Model.PipeMemory
import Verif.Lemmas.PipeMemory
import Verif.Props.PipeMemory
import Verif.Spec.CollChain
import Verif.Lemmas.CollChain
import Verif.Props.CollChain
import Verif.Spec.LazyColl
import Verif.Model.LazyColl
import Verif.Lemmas.LazyColl
import Verif.Props.LazyColl
import Verif.Model.AtPathMut
import Verif.Lemmas.AtPathMut
import Verif.Props.AtPathMut
import Verif.Spec.LazyCollPipe
import Verif.Model.LazyCollPipe
import Verif.Lemmas.LazyCollPipe
import Verif.Props.LazyCollPipe
import Verif.Lemmas.CollEarly
import Verif.Lemmas.CollEarlySpec
import Verif.Props.CollEarly
import Verif.Props.MutCollEarly
import Verif.Spec.Advance
import Verif.Model.Advance
import Verif.Lemmas.Advance
import Verif.Lemmas.AdvanceBin
import Verif.Props.Advance
import Verif.Spec.FailPipe
import Verif.Model.FailPipe
import Verif.Lemmas.FailPipe
import Verif.Props.FailPipe
import Verif.Model.FailColl
import Verif.Spec.FailColl
import Verif.Lemmas.FailColl
import Verif.Props.FailColl
import Verif.Spec.FailPath
import Verif.Model.FailPath
import Verif.Lemmas.FailPath
import Verif.Props.FailPath
import Verif.Spec.FailFold
import Verif.Model.FailFold
import Verif.Lemmas.FailFold
import Verif.Props.FailFold
import Verif.Spec.FailPlace
import Verif.Model.FailPlace
import Verif.Lemmas.FailPlace
import Verif.Props.FailPlace
import Verif.Lemmas.FailMid
import Verif.Props.FailMid
import Verif.Spec.FailSource
import Verif.Model.FailSource
import Verif.Lemmas.FailSource
import Verif.Props.FailSource
import Verif.Spec.FailPostBin
import Verif.Model.FailPostBin
import Verif.Lemmas.FailPostBin
import Verif.Lemmas.FailPostBinCrop
import Verif.Lemmas.FailBfsBin
import Verif.Props.FailPostBin
import Verif.Props.FailSourceCtx
import Verif.Spec.AdvancePath
import Verif.Lemmas.AdvancePath
import Verif.Props.AdvancePath
