import Verif.Basic
import Verif.Heap.Model
import Verif.Heap.Lemmas
import Verif.Heap.Props
import Verif.Heap.Shared
import Verif.Heap.Effort
import Verif.Hash.Model
import Verif.Hash.Lemmas
import Verif.Hash.Props
import Verif.Hash.Limit
import Verif.HumanSize.Model
import Verif.HumanSize.Lemmas
import Verif.HumanSize.Props
import Verif.HumanSize.NumSpec
import Verif.HumanSize.Numbers
import Verif.Config.Model
import Verif.Config.Lemmas
import Verif.Config.Props
import Verif.Config.Values
import Verif.File.Model
import Verif.File.Props
import Verif.Report.Model
import Verif.Report.Lemmas
import Verif.Report.Outer
import Verif.Report.Props
import Verif.Report.Disk
import Verif.Report.Threads
import Verif.Pool.Model
import Verif.Pool.Lemmas
import Verif.Pool.Inv
import Verif.Pool.Live
import Verif.Pool.Props
import Verif.Pool.After
import Verif.Pool.AfterProps
import Verif.Pool.Startup
import Verif.Pool.Hashing
import Verif.Ignore.Model
import Verif.Ignore.Regex
import Verif.Ignore.Lemmas
import Verif.Ignore.Props
import Verif.Ignore.Git
import Verif.Ignore.GitProps
import Verif.Traverse.Model
import Verif.Traverse.Props
import Verif.Traverse.Run
import Verif.Page.Model
import Verif.Page.Spec
import Verif.Page.Lemmas
import Verif.Page.Ops
import Verif.Page.Del
import Verif.Page.Split
import Verif.Page.Search
import Verif.Page.Props
import Verif.Db.Model
import Verif.Db.Spec
import Verif.Db.Lemmas
import Verif.Db.Walk
import Verif.Db.Ops
import Verif.Db.SplitLemmas
import Verif.Db.Climb
import Verif.Db.Put
import Verif.Db.Replace
import Verif.Db.Props
import Verif.Db.Middle
import Verif.Db.Check
import Verif.Db.ExactSpec
import Verif.Db.ExactSeek
import Verif.Db.ExactNode
import Verif.Db.ExactClimb
import Verif.Db.ExactUp
import Verif.Db.ExactPut
import Verif.Db.ExactProps
import Verif.Db.Desc
import Verif.Db.DescProps
import Verif.Db.Asc
import Verif.Db.BulkProps
import Verif.Db.CursorLemmas
import Verif.Db.CursorProps
import Verif.Db.Leaves
import Verif.Db.LeavesProps
import Verif.Db.TxnModel
import Verif.Db.TxnLemmas
import Verif.Db.TxnSpec
import Verif.Db.Commit
import Verif.Db.TxnProps
import Verif.Db.Inv
import Verif.Db.MetaProps
import Verif.Db.LockProps
import Verif.Db.Witness
import Verif.Db.CrashProps
import Verif.Db.SnapProps
import Verif.Db.TxnExamples
import Verif.Db.FailProps
import Verif.Db.FreeProps
import Verif.Cache.Props
import Verif.Cache.Hist
import Verif.Cache.Witness
import Verif.Cache.Exact
import Verif.Cache.LockProps
import Verif.Db.BulkSave
import Verif.Cache.Large
import Verif.Cache.LargeProps
import Verif.Output.Props
import Verif.Output.Color
import Verif.Output.JsonProps
import Verif.Db.Reclaim
import Verif.Db.ReclaimProps
import Verif.Image.Model
import Verif.Image.Spec
import Verif.Image.Lemmas
import Verif.Image.Props
import Verif.Image.Main
import Verif.Output.SizeProps
import Verif.Archive.Model
import Verif.Archive.Spec
import Verif.Archive.Lemmas
import Verif.Archive.Props
import Verif.Archive.Trace
import Verif.Archive.TraceProps
import Verif.Db.MapProps
import Verif.Pool.Order
import Verif.Pool.Cells
import Verif.Pool.CellProps
import Verif.Xxh.Model
import Verif.Xxh.Lemmas
import Verif.Xxh.Props
import Verif.Xxh.Gids
import Verif.Config.Names
import Verif.Traverse.Defined
import Verif.Main.Model
import Verif.Main.Spec
import Verif.Main.Lemmas
import Verif.Main.Props
import Verif.Main.Status
import Verif.Db.Begin
import Verif.Db.BeginProps
import Verif.Main.Example
import Verif.Main.Images
import Verif.Report.Same
import Verif.Traverse.Order
import Verif.Main.Same
import Verif.Db.Handle
import Verif.Db.HandleProps
import Verif.Db.ManyProps
import Verif.Report.Crash
import Verif.Report.CrashProps
import Verif.Xxh.Model128
import Verif.Xxh.Stream
import Verif.Xxh.Whole
import Verif.Xxh.Inj
import Verif.Xxh.Collide
import Verif.Xxh.Props128
import Verif.Report.Cut
import Verif.Report.CutProps
import Verif.Traverse.Links
import Verif.Traverse.LinkProps
import Verif.Main.Links
import Verif.Config.Getopt
import Verif.Config.GetoptLemmas
import Verif.Config.GetoptProps
import Verif.Main.Argv
import Verif.Main.Whole
import Verif.Main.Crash
import Verif.Report.Messages
import Verif.Output.Dry
import Verif.Page.Damage
import Verif.Page.DamageSplit
import Verif.Db.Remap
import Verif.Output.Recipe
import Verif.Main.Recipe
import Verif.Traverse.Removed
import Verif.Main.Again
import Verif.Db.SeekProps
import Verif.Db.RefusedProps
import Verif.Db.EmptiedProps
import Verif.Output.JsonTextProps
import Verif.Report.Effort
import Verif.Ignore.Exec
import Verif.Tests
import Verif.Db.QuietProps
import Verif.Fixed
import Verif.Report.Wakeup
import Verif.Db.Pointer
import Verif.Db.PointerSplit
import Verif.Db.PointerProps
import Verif.Db.LiveFree
import Verif.Db.Loose
import Verif.Db.LooseProps
import Verif.Db.Sheet
import Verif.Db.Pile
import Verif.Db.PileProps
import Verif.Cache.Hollow
import Verif.Db.Honest
import Verif.Db.HonestProps
import Verif.Db.Stopped
import Verif.Cache.HonestProps
import Verif.Db.Small
import Verif.Db.Wear
import Verif.Db.WearProps
import Verif.Db.StuckProps
import Verif.Db.Blocked
import Verif.Db.BlockedProps
import Verif.Cache.WearProps
import Verif.Cache.AlignProps
import Verif.File.Handles
import Verif.File.HandleProps
import Verif.Traverse.Handles
import Verif.Main.Genuine
import Verif.TestsDb
import Verif.TestsCursor
import Verif.TestsMvcc
import Verif.Hash.SweepProps
import Verif.Db.DelIfProps
import Verif.Db.PutFromProps
import Verif.Db.Live
import Verif.Db.LiveWalk
import Verif.Db.LiveProps
import Verif.Db.LiveBack
import Verif.Cache.Live
import Verif.Hash.Effort
import Verif.Db.Deep
import Verif.Cache.Full
