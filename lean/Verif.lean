import Verif.Props.Distance
import Verif.Props.Query
import Verif.Props.State
import Verif.Props.Dawg
import Verif.Props.Iter
import Verif.Props.Serial
import Verif.Props.Session
import Verif.Props.Lifetime
import Verif.Props.Library
import Verif.Props.Threads
import Verif.Props.StateHeap
import Verif.Props.Wire
import Verif.Props.Cost
import Verif.Props.Ops
import Verif.Props.Demo
import Verif.Props.DemoText
import Verif.Props.TestSuite
import Verif.Props.SerialAny
import Verif.Props.DeleteCost
import Verif.Props.DistCost
import Verif.Props.Subsume
import Verif.Props.Text
import Verif.Props.AnyGraph
import Verif.Props.SerialGraph
import Verif.Props.DemoAny
import Verif.Props.BuildCost
import Verif.Model.Depth
import Verif.Proofs.DistDepth
import Verif.Proofs.NodeDepth
import Verif.Proofs.SortDepth
import Verif.Props.Depth
import Verif.Proofs.IterAny
import Verif.Props.IterAny
import Verif.Proofs.NodeAny
import Verif.Props.NodeAny
import Verif.Model.TestUtils
import Verif.Props.TestUtils
import Verif.Model.Assign
import Verif.Spec.Assign
import Verif.Proofs.Assign
import Verif.Props.Assign
import Verif.Model.Failing
import Verif.Spec.Failing
import Verif.Proofs.Failing
import Verif.Props.Failing
import Verif.Model.BuildFail
import Verif.Spec.BuildFail
import Verif.Proofs.Site
import Verif.Proofs.SiteRun
import Verif.Proofs.SiteAdd
import Verif.Proofs.SiteWords
import Verif.Proofs.SiteCalls
import Verif.Proofs.SiteEnd
import Verif.Proofs.SiteClash
import Verif.Proofs.SiteFactory
import Verif.Props.BuildFail
import Verif.Model.DistFail
import Verif.Proofs.DistFail
import Verif.Props.DistFail
import Verif.Model.IterFail
import Verif.Spec.IterFail
import Verif.Proofs.IterFail
import Verif.Props.IterFail
import Verif.Model.SerialFail
import Verif.Spec.SerialFail
import Verif.Proofs.SerialFail
import Verif.Props.SerialFail
import Verif.Spec.BuildMem
import Verif.Proofs.BuildMem
import Verif.Props.BuildMem
import Verif.Spec.QueryMem
import Verif.Proofs.QueryMem
import Verif.Props.QueryMem
import Verif.Model.LongHash
import Verif.Spec.LongHash
import Verif.Proofs.LongHash
import Verif.Props.LongHash
import Verif.Spec.TestUtils
import Verif.Spec.LongWords
import Verif.Proofs.LongWords
import Verif.Props.LongWords
import Verif.Model.DictThreads
import Verif.Spec.DictThreads
import Verif.Proofs.FuelBound
import Verif.Proofs.DictThreadsRun
import Verif.Proofs.DictThreadsSafe
import Verif.Proofs.DictThreadsDict
import Verif.Proofs.DictThreads
import Verif.Props.DictThreads
import Verif.Spec.WireGrammar
import Verif.Proofs.WireGrammar
import Verif.Props.WireGrammar
import Verif.Spec.Joined
import Verif.Proofs.Joined
import Verif.Props.Joined
import Verif.Proofs.LateAdd
import Verif.Props.LateAdd
import Verif.Proofs.Resume
import Verif.Proofs.Reuse
import Verif.Props.Resume
import Verif.Props.Life
import Verif.Spec.IterMem
import Verif.Props.IterMem
import Verif.Proofs.Abandon
import Verif.Props.Abandon
import Verif.Proofs.Watch
import Verif.Props.Watch
import Verif.Spec.AnyOrder
import Verif.Proofs.SiteOpen
import Verif.Props.AnyOrder
import Verif.Props.Sittings
import Verif.Spec.Second
import Verif.Proofs.Over
import Verif.Proofs.OverEnd
import Verif.Props.OverRun
import Verif.Props.Second
import Verif.Props.IterGone
import Verif.Props.LifetimeLast
import Verif.Props.Many
import Verif.Props.AnyCursor
import Verif.Props.Nested
import Verif.Props.Copies
import Verif.Props.Relations
import Verif.Props.DistanceValues
import Verif.Model.Stream
import Verif.Props.Stream
import Verif.Model.DemoStream
import Verif.Props.DemoStream
import Verif.Model.StreamThrow
import Verif.Props.StreamThrow
