import Verif.Props.Codec
import Verif.Props.Blocks
import Verif.Props.Tx
import Verif.Props.Merkle
import Verif.Props.Pow
import Verif.Props.Validate
import Verif.Props.Chain
import Verif.Props.Ledger
import Verif.Props.Send
import Verif.Props.Emit
import Verif.Props.Life
import Verif.Props.Crash
import Verif.Props.Pool
import Verif.Props.Threads
import Verif.Props.ThreadsSend
import Verif.Props.ThreadsEmit
import Verif.Props.ThreadsLive
import Verif.Props.ThreadsRead
import Verif.Props.ThreadsLinear
import Verif.Props.ThreadsFlush
import Verif.Props.SummaryDb
import Verif.Props.Files
import Verif.Props.Commit
import Verif.Props.Proofs
import Verif.Props.Wire
import Verif.Props.Getters
import Verif.Props.Light
import Verif.Props.Future
import Verif.Props.Relist
import Verif.Model.ThreadsCut
import Verif.Props.ThreadsCut
import Verif.Spec.Torn
import Verif.Lemmas.Torn
import Verif.Props.Torn
import Verif.Lemmas.FaultsDeriv
import Verif.Model.ThreadsDerivCut
import Verif.Model.Unsafe
import Verif.Props.SlotCut
import Verif.Props.ThreadsDerivCut
import Verif.Props.BusyLife
import Verif.Props.DerivCrash
import Verif.Props.BusyDeriv
import Verif.Props.ThreadsDerivSerial
import Verif.Props.DerivKill
import Verif.Props.SendKill
import Verif.Props.DerivPower
import Verif.Props.Machine
import Verif.Props.MachineLedger
import Verif.Props.MachineDeriv
import Verif.Props.MachineThreads
import Verif.Props.Foreign
import Verif.Props.Unsafe
import Verif.Props.Panics
import Verif.Props.Count
import Verif.Props.Damage
import Verif.Props.Forget
import Verif.Props.ForgetRestart
import Verif.Props.ForgetDeriv
import Verif.Props.DamageEpoch
import Verif.Props.Scars
import Verif.Props.Refusals
import Verif.Props.Clients
import Verif.Props.Repeats
import Verif.Props.Redo
import Verif.Props.RedoDeriv
import Verif.Props.Order
import Verif.Props.ThreadsSum
import Verif.Props.ThreadsCovered
import Verif.Props.AnyOrder
import Verif.Props.OrdersSchedules
import Verif.Props.Enough
import Verif.Props.Confluent
import Verif.Props.Replies
import Verif.Props.Cutoffs
import Verif.Props.Telling
import Verif.Props.Settled
import Verif.Props.TellingCoins
import Verif.Props.SettledCoins
import Verif.Props.Trust
import Verif.Props.Faults
import Verif.Props.Economy
import Verif.Props.Time
import Verif.Props.Clock
import Verif.Props.Real
import Verif.Props.Frame
import Verif.Props.Gas
import Verif.Props.Paid
import Verif.Props.Books
import Verif.Props.Rotate
import Verif.Props.Refine
import Verif.Props.DerivEmit
import Verif.Props.ThreadsSerial
import Verif.Props.ThreadsCrash
import Verif.Props.Frail
import Verif.Props.ThreadsPay
import Verif.Props.Power
import Verif.Props.Miner
import Verif.Props.MinerKill
import Verif.Props.Recorded
import Verif.Props.RepoTests
import Verif.Props.Secp
import Verif.Props.Replica
import Verif.Props.Branch
import Verif.Props.Reads
import Verif.Props.Reopen
import Verif.Props.Anchor
import Verif.Props.ThreadsLinked
import Verif.Model.ThreadsDeriv
import Verif.Props.Slot
import Verif.Props.ThreadsDeriv
import Verif.Props.ThreadsDerivLive
