import Verif.Lru.Props
import Verif.Index.Props
import Verif.Rehash.Props
import Verif.Bucket.Props
import Verif.Reserve.Props
import Verif.Table.MapProps
import Verif.Table.ScanProps
import Verif.Table.LockProps
import Verif.Leaf.Props
import Verif.LeafConc.Props
import Verif.Tree.Model
import Verif.Tree.LeafFacts
import Verif.Tree.Shape
import Verif.Tree.Link
import Verif.Tree.Insert
import Verif.Tree.InsertTr
import Verif.Tree.Remove
import Verif.Tree.Index
import Verif.Tree.RangeLeaf
import Verif.Tree.Range
import Verif.Tree.IterModel
import Verif.Tree.Iter
import Verif.Tree.IterRange
import Verif.Tree.Spec
import Verif.Tree.Props
import Verif.Tree.Unwind
import Verif.Tree.UnwindSafe
import Verif.Tree.UnwindWitness
import Verif.Tree.IterProps
import Verif.Peek.Model
import Verif.Peek.Inv
import Verif.Peek.Preserve
import Verif.Peek.Span
import Verif.Peek.Props
import Verif.Peek.Link
import Verif.Peek.Table
import Verif.Bucket.Cells
import Verif.Seq.Model
import Verif.Seq.Inv
import Verif.Seq.Ops
import Verif.Seq.Cursor
import Verif.Seq.Traverse
import Verif.Seq.Pass
import Verif.Seq.Hist
import Verif.Seq.Props
import Verif.Seq.Entry
import Verif.Seq.EntryProps
import Verif.Seq.IndexIter
import Verif.Seq.Conv
import Verif.Bucket.Cache
import Verif.Seq.Cache
import Verif.Seq.CacheHist
import Verif.Seq.CacheProps
import Verif.Seq.CacheRoom
import Verif.Seq.CacheOrder
import Verif.Seq.CacheGrow
import Verif.Seq.CacheUse
import Verif.Seq.CacheLru
import Verif.Seq.Limits
import Verif.Seq.CacheSmall
import Verif.Seq.CacheFull
import Verif.Seq.CacheFewer
import Verif.Seq.Resize
import Verif.Gc.Witness
import Verif.Scope.Safe
import Verif.Crowd.Model
import Verif.Crowd.Proof
import Verif.Crowd.Props
import Verif.Grove.Witness
import Verif.Grove.Calm
import Verif.Grove.Demo
import Verif.Vine.Witness
import Verif.Vine.Paths
import Verif.Vine.View
import Verif.Vine.Keep
import Verif.Vine.Order
import Verif.Vine.Links
import Verif.Vine.Facts
import Verif.Vine.World
import Verif.Vine.Moves
import Verif.Vine.Turns
import Verif.Vine.Splits
import Verif.Vine.Change
import Verif.Vine.Relinks
import Verif.Vine.Touch
import Verif.Vine.Iters
import Verif.Vine.Faith
import Verif.Vine.Firm
import Verif.Vine.Straight
import Verif.Vine.Marks
import Verif.Vine.Cells
import Verif.Vine.Mono
import Verif.Vine.Rise
import Verif.Peek.Scan
import Verif.Peek.IterTable
import Verif.Table.Panic
import Verif.Table.PanicWitness
import Verif.Table.Cache
import Verif.Bucket.Reserve
import Verif.Async.Model
import Verif.Async.Proof
import Verif.Async.Fit
import Verif.Async.Props
import Verif.Async.Witness
import Verif.Weak.Model
import Verif.Weak.Inv
import Verif.Weak.Push
import Verif.Weak.Frame
import Verif.Weak.Writer
import Verif.Weak.Steps
import Verif.Weak.Steps2
import Verif.Weak.Steps3
import Verif.Weak.Proof
import Verif.Weak.Found
import Verif.Weak.Props
import Verif.Weak.Witness
import Verif.Mow.Model
import Verif.Mow.Spec
import Verif.Mow.Inv
import Verif.Mow.Step
import Verif.Mow.Main
import Verif.Mow.Props
import Verif.Twig.Model
import Verif.Twig.Inv
import Verif.Twig.Core
import Verif.Twig.Cells
import Verif.Twig.Words
import Verif.Twig.Views
import Verif.Twig.Pcs
import Verif.Twig.Step
import Verif.Twig.Readers
import Verif.Twig.Holder
import Verif.Twig.Links
import Verif.Twig.Cause
import Verif.Twig.Causes
import Verif.Twig.Seen
import Verif.Twig.Spec
import Verif.Twig.Laws
import Verif.Twig.Refine
import Verif.Twig.Order
import Verif.Twig.Props
import Verif.Twig.Sched
import Verif.Twig.Fence
import Verif.Twig.Fenced
import Verif.Knot.Model
import Verif.Knot.Forest
import Verif.Knot.Inv
import Verif.Knot.Steps
import Verif.Knot.Props
import Verif.Knot.Examples
import Verif.Slot.Model
import Verif.Slot.Inv
import Verif.Slot.Pairs
import Verif.Slot.Props
import Verif.Alloc.Model
import Verif.Alloc.Props
import Verif.Haze.Model
import Verif.Haze.Inv
import Verif.Haze.Steps
import Verif.Haze.Steps2
import Verif.Haze.Lin
import Verif.Haze.Views
import Verif.Haze.Order
import Verif.Haze.Race
import Verif.Haze.Real
import Verif.Haze.Props
import Verif.Peek.Again
import Verif.Seq.IndexCursor
import Verif.Mist.Know
import Verif.Mist.Keep
import Verif.Mist.Model
import Verif.Mist.Frame
import Verif.Mist.Hist
import Verif.Mist.Look
import Verif.Mist.Props
import Verif.Mist.Runs
import Verif.Mist.Loose
import Verif.Seq.Fewer
import Verif.Uproot.Model
import Verif.Uproot.Inv
import Verif.Uproot.Grow
import Verif.Uproot.Props
import Verif.Perch.Model
import Verif.Perch.Props
import Verif.Vine.Wipe
import Verif.Coppice.Model
import Verif.Coppice.Order
import Verif.Coppice.Inv
import Verif.Coppice.Props
import Verif.Coppice.Demo
import Verif.Coppice.Twice
