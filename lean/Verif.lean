import Verif.Props.Local
import Verif.Props.Room
import Verif.Props.Growth
import Verif.Props.Indep
import Verif.Props.Sync
import Verif.Props.Cache
import Verif.Props.Proxy
import Verif.Props.Blink
import Verif.Props.BlinkIter
import Verif.Props.Global
import Verif.Props.GlobalSync
import Verif.Props.GlobalSyncMore
import Verif.Props.Start
import Verif.Props.SyncMore
import Verif.Props.Reuse
import Verif.Props.Footprint
import Verif.Props.SyncRace
import Verif.Props.CacheProgress
import Verif.Props.BlinkEnd
import Verif.Props.ProxyRoom
import Verif.Spec.Touch
import Verif.Proofs.Blind
import Verif.Proofs.Keeps
import Verif.Props.SyncDRF
import Verif.Spec.HB
import Verif.Proofs.HBGo
import Verif.Proofs.HB
import Verif.Proofs.HBStep
import Verif.Props.SyncHB
import Verif.Spec.ProxyProg
import Verif.Proofs.ProxyProg
import Verif.Props.ProxyProgress
import Verif.Props.ProxyReset
import Verif.Props.ProxyGrowth
import Verif.Spec.ProxyView
import Verif.Proofs.Twin
import Verif.Proofs.ProxyTwin
import Verif.Proofs.ProxyRefine
import Verif.Props.ProxyRefine
import Verif.Spec.ProxyTouch
import Verif.Proofs.ProxyBlind
import Verif.Props.ProxyDRF
import Verif.Props.ProxyShared
import Verif.Props.ProxyHB
import Verif.Props.GlobalProxy
import Verif.Props.GlobalEdge
import Verif.Props.BlinkAny
import Verif.Props.Contract
import Verif.Props.Env
import Verif.Props.GlobalBoth
import Verif.Props.BlinkGrow
import Verif.Props.GlobalReset
import Verif.Props.AnyContract
import Verif.Props.SyncFootprint
import Verif.Props.Shared
import Verif.Props.IterRoom
import Verif.Props.SyncZero
import Verif.Props.ZeroContract
import Verif.Props.ProxyZero
import Verif.Props.ProxyZeroContract
import Verif.Props.SyncWarm
import Verif.Props.ProxyWarm
