import Verif.Arc.Seq
import Verif.Arc.Proofs.SeqQuiet
import Verif.Arc.Proofs.SeqCall
import Verif.Arc.Proofs.SeqAlive
import Verif.Arc.Proofs.SeqRel
import Verif.Arc.Proofs.SeqSim
import Verif.Arc.Proofs.SeqFam
import Verif.Spec.ArcWorld
import Verif.Props.ArcSeq
import Verif.Props.ArcLive
import Verif.Props.ArcRefuse
import Verif.Props.ArcUpgrade
import Verif.Props.ArcChild
import Verif.Props.ArcExclusive
import Verif.Props.ArcFails
import Verif.Props.ArcGate
import Verif.Props.ArcRelease
import Verif.Props.ArcSafety
import Verif.Props.Iteration
import Verif.Props.RcExclusive
import Verif.Props.RcFrame
import Verif.Props.RcRelease
import Verif.Props.RcSafety
import Verif.Props.Views
import Verif.Rc.Machine
import Verif.Rc.Proofs.Inv
import Verif.Rc.Proofs.Drop
import Verif.Rc.Proofs.Exact
import Verif.Rc.Proofs.Ops
import Verif.Rc.Proofs.Rel
import Verif.Rc.Proofs.Refine
import Verif.Spec.Reentrant
import Verif.Rc.SharedParts
import Verif.Rc.Proofs.PartsLoop
import Verif.Rc.Proofs.PartsSim
import Verif.Rc.Proofs.PartsInv
import Verif.Props.RcParts
import Verif.Arc.Race
import Verif.Arc.Proofs.Race1
import Verif.Arc.Proofs.Race2
import Verif.Arc.Proofs.Race3
import Verif.Arc.Proofs.Race4
import Verif.Arc.Proofs.Race5
import Verif.Arc.Proofs.Race6
import Verif.Arc.Proofs.Race7
import Verif.Arc.Proofs.Race8
import Verif.Arc.Proofs.Race9
import Verif.Props.ArcRace
import Verif.Props.ArcRaceMut
import Verif.Arc.Proofs.Pub1
import Verif.Arc.Proofs.Pub2
import Verif.Arc.Proofs.Pub3
import Verif.Arc.Proofs.Pub4
import Verif.Arc.Proofs.Pub5
import Verif.Arc.Proofs.Mut1
import Verif.Arc.Proofs.Mut2
import Verif.Arc.Proofs.Mut3
import Verif.Arc.Proofs.Pub6
import Verif.Props.ArcPublish
import Verif.Rc.Unwind
import Verif.Spec.Unwind
import Verif.Rc.Proofs.Unwind
import Verif.Props.RcUnwind
import Verif.Arc.Unwind
import Verif.Arc.Proofs.Unwind
import Verif.Arc.Proofs.Unwind2
import Verif.Arc.Proofs.Unwind3
import Verif.Props.ArcUnwind
import Verif.Arc.Contract
import Verif.Arc.Proofs.Contract
import Verif.Arc.Proofs.Contract2
import Verif.Props.ArcContract
import Verif.Arc.Proofs.DropIn
import Verif.Props.ArcDrop
import Verif.Arc.Threads
import Verif.Arc.Proofs.Threads
import Verif.Arc.Proofs.Threads2
import Verif.Arc.Proofs.Threads3
import Verif.Arc.Proofs.Threads4
import Verif.Props.ArcParts
import Verif.Arc.Proofs.Rest
import Verif.Props.ArcRest
import Verif.Arc.Values
import Verif.Arc.Proofs.Values
import Verif.Arc.Proofs.Values2
import Verif.Arc.Proofs.Values3
import Verif.Props.ArcValues
import Verif.Props.ArcTight
import Verif.Arc.Stale
import Verif.Arc.Proofs.Stale
import Verif.Props.ArcStale
import Verif.Arc.Local
import Verif.Arc.Bodies
import Verif.Arc.Proofs.Local
import Verif.Props.ArcLocal
import Verif.Arc.Weak
import Verif.Arc.Proofs.Weak
import Verif.Arc.Proofs.Weak2
import Verif.Props.ArcWeak
import Verif.Arc.Return
import Verif.Arc.Proofs.Return1
import Verif.Arc.Proofs.Return2
import Verif.Props.ArcReturn
import Verif.Arc.Proofs.Zone
import Verif.Arc.Proofs.Private
import Verif.Arc.Proofs.Families
import Verif.Props.ArcGranted
import Verif.Arc.Turns
import Verif.Arc.Proofs.Turns
import Verif.Arc.Proofs.Starve
import Verif.Props.ArcTurns
import Verif.Arc.SendSync
import Verif.Arc.Proofs.SendSync
import Verif.Arc.Proofs.HomeThread
import Verif.Props.ArcSendSync
import Verif.Arc.Bounds
import Verif.Arc.Proofs.BoundCount
import Verif.Arc.Proofs.Bounds
import Verif.Props.ArcBounds
import Verif.Rc.Bounds
import Verif.Rc.Proofs.Bounds
import Verif.Props.RcBounds
import Verif.Rc.Within
import Verif.Rc.Proofs.Within
import Verif.Props.RcWithin
import Verif.Rc.Kept
import Verif.Rc.Proofs.Kept
import Verif.Props.RcKept
import Verif.Model.SizeHint
import Verif.Props.SizeHint
import Verif.Rc.Counts
import Verif.Rc.Proofs.Counts
import Verif.Props.RcCounts
import Verif.Arc.Counts
import Verif.Arc.Proofs.Counts
import Verif.Props.ArcCounts
import Verif.Arc.Leak
import Verif.Arc.Proofs.Leak
import Verif.Arc.Proofs.Leak2
import Verif.Props.ArcLeak
import Verif.Arc.Kept
import Verif.Arc.Proofs.Kept
import Verif.Props.ArcKept
import Verif.Arc.Solo
import Verif.Arc.Proofs.Solo
import Verif.Props.ArcSolo
import Verif.Props.PartsEven
import Verif.Rc.Inside
import Verif.Props.RcOrder
import Verif.Props.ArcOrder
import Verif.Props.RcOrderPanic
