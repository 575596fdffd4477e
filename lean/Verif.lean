import Verif.Core.Sys
import Verif.Core.Count
import Verif.Core.Spec
import Verif.Core.Tactic
import Verif.Core.Fifo
import Verif.Core.Bits
import Verif.Spin.Simple
import Verif.Spin.SimpleThm
import Verif.Spin.Ticket
import Verif.Spin.TicketInv
import Verif.Spin.TicketThm
import Verif.Spin.Anderson
import Verif.Spin.AndersonThm
import Verif.Spin.Clh
import Verif.Spin.ClhThm
import Verif.Spin.Hclh
import Verif.Spin.HclhInv
import Verif.Spin.HclhLoc
import Verif.Spin.HclhThm
import Verif.Spin.Mcs
import Verif.Spin.McsThm
import Verif.Rw.Rwlock
import Verif.Rw.RwlockThm
import Verif.Rw.RwRecursive
import Verif.Rw.RwRecursiveThm
import Verif.Rw.Pflock
import Verif.Rw.PflockThm
import Verif.Rw.Tflock
import Verif.Rw.TflockThm
import Verif.Core.Seg
import Verif.Rw.Swlock
import Verif.Rw.SwlockThm
import Verif.Rw.Brlock
import Verif.Rw.BrlockThm
import Verif.Rw.Bytelock
import Verif.Rw.BytelockThm
import Verif.Cohort.Cohort
import Verif.Cohort.CohortThm
import Verif.Cohort.RwCohort
import Verif.Cohort.RwCohortThm
import Verif.Misc.Sequence
import Verif.Misc.SequenceThm
import Verif.Barrier.Centralized
import Verif.Barrier.CentralizedThm
import Verif.Core.Lin
import Verif.Misc.Internal
import Verif.Misc.Backoff
import Verif.Misc.CasLoop
import Verif.Misc.TimeUtil
import Verif.Barrier.Dissemination
import Verif.Barrier.DisseminationThm
import Verif.Barrier.Tournament
import Verif.Barrier.TournamentThm
import Verif.Barrier.McsBarrier
import Verif.Barrier.McsBarrierThm
import Verif.Barrier.Combining
import Verif.Barrier.CombiningThm
import Verif.Bitmap.Bitmap
import Verif.Bitmap.Word
import Verif.Bitmap.Thm
import Verif.Bitmap.IterThm
import Verif.Bitmap.Conc
import Verif.Ring.Ring
import Verif.Ring.Inv
import Verif.Ring.Thm
import Verif.Ring.More
import Verif.Ring.Wit
import Verif.Stack.Stack
import Verif.Stack.Thm
import Verif.Stack.Wit
import Verif.Stack.Nc
import Verif.Core.NonLin
import Verif.Fifo.Spsc
import Verif.Fifo.Mpmc
import Verif.Fifo.MpmcThm
import Verif.Fifo.MpmcWit
import Verif.Fifo.MpmcTry
import Verif.Queue.Queue
import Verif.Queue.Thm
import Verif.Queue.Reader
import Verif.Queue.Flavors
import Verif.Array.Array
import Verif.Array.Thm
import Verif.Array.Reader
import Verif.Ec.Ec
import Verif.Ec.Word
import Verif.Ec.Thm
import Verif.Ec.Wait
import Verif.Ec.Wit
import Verif.Ec.Backoff
import Verif.Core.Hind
import Verif.Ht.Hs
import Verif.Ht.HsInv
import Verif.Ht.HsOps
import Verif.Ht.HsThm
import Verif.Ht.HsRead
import Verif.Ht.HsWit
import Verif.Ht.Ht
import Verif.Ht.HtInv
import Verif.Ht.HtThm
import Verif.Ht.HtWit
import Verif.Ht.HtStep
import Verif.Ht.HtOps
import Verif.Ht.HtRead
import Verif.Ht.HtRdWit
import Verif.Ht.Bytes
import Verif.Smr.Hp
import Verif.Smr.HpInv
import Verif.Smr.HpThm
import Verif.Smr.HpWit
import Verif.Smr.HpUse
import Verif.Smr.HpStack
import Verif.Smr.HpStackThm
import Verif.Smr.HpStackWit
import Verif.Smr.HpFifo
import Verif.Smr.HpFifoInv
import Verif.Smr.HpFifoThm
import Verif.Smr.HpFifoLin
import Verif.Smr.HpFifoWit
import Verif.Smr.Epoch
import Verif.Smr.EpochInv
import Verif.Smr.EpochCnt
import Verif.Smr.EpochBnd
import Verif.Smr.EpochSync
import Verif.Smr.EpochCall
import Verif.Smr.EpochOnce
import Verif.Smr.EpochThm
import Verif.Smr.EpochWit
import Verif.Rhs.Rhs
import Verif.Rhs.Geo
import Verif.Rhs.Inv
import Verif.Rhs.Loops
import Verif.Rhs.Put
import Verif.Rhs.Del
import Verif.Rhs.Grow
import Verif.Rhs.Ops
import Verif.Rhs.Thm
import Verif.Rhs.Wit
import Verif.Rhs.Lost
import Verif.Core.Weak
import Verif.Weak.Sequence
import Verif.Weak.SequenceThm
import Verif.Weak.Ring
import Verif.Weak.RingThm
import Verif.Weak.Fas
import Verif.Weak.Ticket
import Verif.Weak.Rwlock
import Verif.Weak.RwlockThm
import Verif.Weak.Barrier
import Verif.Weak.BarrierThm
import Verif.Weak.Hp
import Verif.Weak.HpThm
import Verif.Core.Drain
import Verif.Progress.Pflock
import Verif.Progress.Brlock
import Verif.Progress.Bytelock
import Verif.Progress.Rwlock
import Verif.Progress.Swlock
import Verif.Progress.Tflock
import Verif.Progress.Cohort
import Verif.Progress.RwCohort
import Verif.Progress.Spin
import Verif.Core.Tso
import Verif.Weak.Epoch
import Verif.Weak.EpochThm
import Verif.Tso.Epoch
import Verif.Tso.EpochThm
import Verif.Weak.Put
import Verif.Weak.Mcs
import Verif.Weak.McsThm
import Verif.Weak.Clh
import Verif.Weak.ClhThm
import Verif.Weak.Anderson
import Verif.Weak.AndersonThm
import Verif.Weak.Pflock
import Verif.Weak.PflockThm
import Verif.Weak.Tflock
import Verif.Weak.TflockThm
import Verif.Weak.Swlock
import Verif.Weak.SwlockThm
import Verif.Weak.Brlock
import Verif.Weak.BrlockThm
import Verif.Weak.Cohort
import Verif.Weak.CohortThm
import Verif.Weak.Stack
import Verif.Weak.StackThm
import Verif.Weak.Mpmc
import Verif.Weak.MpmcThm
import Verif.Weak.Lists
import Verif.Weak.ListsThm
import Verif.Weak.Spsc
import Verif.Weak.SpscThm
import Verif.Misc.Elide
import Verif.Misc.ElideThm
import Verif.Misc.ElideAdaptive
import Verif.Ht.Murmur
import Verif.Weak.Bytelock
import Verif.Weak.BytelockThm
import Verif.Misc.Fence
import Verif.Misc.LlScReg
import Verif.Misc.LlScPair
import Verif.Misc.LlScUse
import Verif.Weak.HsReadWit
import Verif.Weak.RhsRead
import Verif.Weak.RhsReadThm
import Verif.Weak.RhsReadWit
import Verif.Weak.Array
import Verif.Weak.ArrayThm
import Verif.Weak.ArrayWit
import Verif.Weak.Dec
import Verif.Weak.Ec
import Verif.Weak.EcThm
import Verif.Weak.EcWit
import Verif.Weak.HtRead
import Verif.Weak.HtReadThm
import Verif.Weak.HtReadWit
import Verif.Weak.MpFifo
import Verif.Weak.MpFifoThm
import Verif.Weak.MpFifoWit
import Verif.Ht.HsIter
import Verif.Ht.HsIterWit
import Verif.Ht.HsStat
import Verif.Ht.HsPack
import Verif.Progress.Lf
import Verif.Progress.StackLf
import Verif.Progress.FifoLf
import Verif.Progress.LfWit
import Verif.Progress.HpStackLf
import Verif.Progress.HpFifoLf
import Verif.Progress.HpLfWit
import Verif.Progress.RingLf
import Verif.Progress.RingLfWit
import Verif.Progress.HsLf
import Verif.Progress.HtLf
import Verif.Progress.HsLfWit
import Verif.Progress.Bias
import Verif.Progress.BiasWit
import Verif.Progress.CohortBias
import Verif.Progress.CohortBiasWit
import Verif.Progress.Sequence
import Verif.Progress.Bypass
import Verif.Progress.TflockBypass
import Verif.Progress.ByteBias
import Verif.Progress.CohortPass
import Verif.Ht.HtStat
