import Verif.Base
import Verif.Range
import Verif.RangeProps
import Verif.Cursor
import Verif.CursorProps
import Verif.Recycle
import Verif.RecycleProps
import Verif.Tree
import Verif.Search
import Verif.Insert
import Verif.NodeLemmas
import Verif.Rep
import Verif.Bubble
import Verif.LeafLemmas
import Verif.LeafSplit
import Verif.NoJoin
import Verif.SearchLemmas
import Verif.Find
import Verif.Joins
import Verif.JoinEdge
import Verif.Spec
import Verif.EdgeInsert
import Verif.SplitInsert
import Verif.InsertSpec
import Verif.Cells
import Verif.GetSpec
import Verif.Mono
import Verif.Bound
import Verif.Observe
import Verif.Reach
import Verif.Hints
import Verif.TreeProps
import Verif.TreeProps2
import Verif.ConstProps
import Verif.Iter
import Verif.IterWalk
import Verif.IterStack
import Verif.IterSim
import Verif.Own
import Verif.OwnInsert
import Verif.Relabel
import Verif.RefTree
import Verif.RefLemmas
import Verif.RefWalk
import Verif.RefProps
import Verif.RefMoves
import Verif.IterProps
import Verif.Handles
import Verif.LiveProps
import Verif.Mock
import Verif.MockIds
import Verif.MockProps
import Verif.MockIter
import Verif.MockTree
import Verif.Directional
import Verif.DirProps
import Verif.Serde
import Verif.SerdeProps
import Verif.SliceRef
import Verif.SliceRefInv
import Verif.SliceRefStep
import Verif.SliceRefProps
import Verif.Drain
import Verif.Atomic
import Verif.AtomicProps
import Verif.Alike
import Verif.Conserve
import Verif.Cow
import Verif.CowHeap
import Verif.CowUnshare
import Verif.CowWrite
import Verif.CowInsert
import Verif.CowDrop
import Verif.CowState
import Verif.CowProps
import Verif.Destroy
import Verif.DestroyProps
import Verif.HolesProps
import Verif.Erase
import Verif.Track
import Verif.PathSpec
import Verif.PathProps
import Verif.Links
import Verif.LinkInsert
import Verif.LinkProps
import Verif.CowLinks
import Verif.CowLinked
import Verif.CowLinkStep
import Verif.CowLinkProps
import Verif.CowLinkInv
import Verif.CowIter
import Verif.CowIterSim
import Verif.CowIterProps
import Verif.CowIterAny
import Verif.CowCursor
import Verif.Validate
import Verif.ValidateProps
import Verif.ClonePanic
import Verif.ClonePanicLemmas
import Verif.ClonePanicWay
import Verif.ClonePanicStep
import Verif.ClonePanicDeep
import Verif.ClonePanicState
import Verif.ClonePanicProps
import Verif.ThreadsProps
import Verif.ThreadsBound
import Verif.ThreadsLinks
import Verif.ThreadsLinkStep
import Verif.ThreadsLinkEnd
import Verif.ThreadsLinkInv
import Verif.ThreadsLinkProps
import Verif.AllocBound
import Verif.CowCost
import Verif.CowCostProps
import Verif.Tick
import Verif.TickInsert
import Verif.TickLemmas
import Verif.TickProps
import Verif.Fuzz
import Verif.FuzzProps
import Verif.CowPath
import Verif.CowLimit
import Verif.CowFuzz
import Verif.CowFuzzProps
import Verif.AnyIndex
import Verif.AnyIndexInsert
import Verif.AnyIndexRun
import Verif.AnyIndexIter
import Verif.AnyIndexRefs
import Verif.AnyIndexProps
import Verif.IndexHom
import Verif.FinUse
import Verif.OrderedGroup
import Verif.OrderedSpec
import Verif.OrderedIndex
import Verif.OrderedProps
import Verif.OrderedNeg
import Verif.IndexHomIter
import Verif.FinUseIter
import Verif.OrderedIter
import Verif.TickIter
import Verif.TickIterProps
import Verif.CursorSpeed
import Verif.CursorCost
import Verif.ConstRle
import Verif.Maximal
import Verif.SliceRefAsk
import Verif.Params
import Verif.ThreadsLimit
import Verif.Commute
import Verif.CowCommute
import Verif.Stored
import Verif.Caught
import Verif.CaughtLemmas
import Verif.CaughtProps
import Verif.CaughtKept
import Verif.CaughtKeptRun
import Verif.CaughtKeptLeaf
import Verif.CaughtContents
import Verif.HolesArith
import Verif.CaughtJoin
import Verif.CaughtJoinContents
import Verif.ArrayHack
import Verif.ArrayHackProps
import Verif.DropPanic
