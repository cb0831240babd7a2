import Verif.Props.Field
import Verif.Props.Poly
import Verif.Props.Bytes
import Verif.Props.Wire
import Verif.Props.Framing
import Verif.Props.KZG
import Verif.Props.VSS
import Verif.Props.ShareReduce
import Verif.Props.Proactivize
import Verif.Props.Refresh
import Verif.Props.RefreshRace
import Verif.Props.ShareDist
import Verif.Props.Epoch
import Verif.Props.Proactive
import Verif.Props.Dispatch
import Verif.Props.Secrecy
import Verif.Props.RBC
import Verif.Props.RBCTotal
import Verif.Props.Tbls
import Verif.Props.MVBA
import Verif.Props.MVBALive
import Verif.Props.Compose
import Verif.Props.ComposeAttack
import Verif.Props.FFT
import Verif.Props.BitRev
import Verif.Props.Recover
import Verif.Props.MultiProof
import Verif.Props.FK20
import Verif.Props.Backends
import Verif.Props.Setup
import Verif.Props.Legacy
import Verif.Lemmas.ProactEffect
import Verif.Model.RefreshNet
import Verif.Spec.RefreshNet
import Verif.Lemmas.RefreshVote
import Verif.Lemmas.RefreshCollect
import Verif.Lemmas.RefreshDist
import Verif.Lemmas.RefreshTotal
import Verif.Lemmas.RefreshNet
import Verif.Lemmas.RefreshShare
import Verif.Lemmas.RefreshSettled
import Verif.Lemmas.RefreshFinish
import Verif.Lemmas.RefreshLift
import Verif.Lemmas.RefreshScript
import Verif.Props.RefreshLive
import Verif.Lemmas.MVBAScript
import Verif.Lemmas.MVBAForce
import Verif.Lemmas.ProactCall
import Verif.Props.Validity
import Verif.Props.Contribution
import Verif.Props.Cases
import Verif.Model.Program
import Verif.Lemmas.Program
import Verif.Props.Room
import Verif.Props.Runs
import Verif.Props.Blocking
import Verif.Props.OneVoice
import Verif.Props.Final
import Verif.Props.Kilic
import Verif.Props.Padding
import Verif.Props.Account
import Verif.Props.RefreshCases
import Verif.Props.DistRace
import Verif.Props.Report
import Verif.Props.EpochCorrupt
import Verif.Props.Instances
import Verif.Props.MoreCases
import Verif.Props.Connect
import Verif.Props.Hbls
import Verif.Props.FFTMemory
import Verif.Props.KeyLog
import Verif.Props.Path
import Verif.Props.OneCommittee
import Verif.Props.Outbound
import Verif.Props.Clog
import Verif.Props.RS
import Verif.Props.Mobile
import Verif.Props.Tap
import Verif.Props.Erasure
import Verif.Props.Split
import Verif.Props.SplitLate
import Verif.Props.Stuck
import Verif.Props.RBCChosen
import Verif.Props.RBCStall
import Verif.Props.PolyText
import Verif.Props.PiSet
import Verif.Props.Held
import Verif.Props.Published
import Verif.Props.Garbage
import Verif.Props.FurtherCases
import Verif.Props.LostHalt
import Verif.Props.BackendsCalc
