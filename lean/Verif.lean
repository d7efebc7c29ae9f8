import Verif.Model.Basic
import Verif.Model.Crc
import Verif.Model.Flash
import Verif.Model.Cache
import Verif.Model.Monad
import Verif.Model.Storage
import Verif.Model.Item
import Verif.Model.Queue
import Verif.Model.Map
import Verif.Model.Codec
import Verif.Model.Ring
import Verif.Spec.Fifo
import Verif.Spec.PageRing
import Verif.Spec.Queue
import Verif.Model.Use
import Verif.Spec.Map
import Verif.Model.MapUse
import Verif.Proofs.Ring
import Verif.Proofs.Arith
import Verif.Proofs.Mem
import Verif.Proofs.Header
import Verif.Proofs.Run
import Verif.Proofs.Layout
import Verif.Proofs.Mix
import Verif.Proofs.Write
import Verif.Proofs.Page
import Verif.Proofs.Shape
import Verif.Proofs.Steps
import Verif.Proofs.Items
import Verif.Proofs.Find
import Verif.Proofs.Content
import Verif.Proofs.QueueInv
import Verif.Proofs.Push
import Verif.Proofs.Iter
import Verif.Proofs.Fit
import Verif.Proofs.QueueRun
import Verif.Proofs.Dirty
import Verif.Proofs.QueueUse
import Verif.Proofs.Safe
import Verif.Proofs.SafeOps
import Verif.Proofs.SafeQueue
import Verif.Proofs.SafeMap
import Verif.Props.Ring
import Verif.Props.Shared
import Verif.Props.Codec
import Verif.Props.Crc
import Verif.Props.Config
import Verif.Props.KeyCache
import Verif.Props.Header
import Verif.Props.PageStates
import Verif.Props.Queue
import Verif.Props.Safe
import Verif.Props.QueueCrash
import Verif.Props.Torn
import Verif.Spec.Damage
import Verif.Spec.Paged
import Verif.Proofs.Paged
import Verif.Props.Capacity
import Verif.Proofs.Damage
import Verif.Proofs.Shred
import Verif.Props.Checksum
import Verif.Props.Damage
import Verif.Proofs.MapDamage
import Verif.Props.MapDamage
import Verif.Proofs.MapInv
import Verif.Proofs.MapScan
import Verif.Proofs.MapFetch
import Verif.Proofs.MapMigrate
import Verif.Proofs.MapRepair
import Verif.Proofs.MapStore
import Verif.Proofs.MapRemove
import Verif.Proofs.MapCalls
import Verif.Proofs.MapIter
import Verif.Proofs.MapRun
import Verif.Proofs.MapAll
import Verif.Proofs.MapDirty
import Verif.Proofs.MapUse
import Verif.Props.Map
import Verif.Props.MapCrash
import Verif.Spec.Buffered
import Verif.Model.BufferedUse
import Verif.Proofs.Buffered
import Verif.Props.Buffered
import Verif.Props.Range
import Verif.Props.MapFail
import Verif.Props.MapSafe
import Verif.Props.MapCache
import Verif.Model.Share
import Verif.Proofs.Local
import Verif.Proofs.Share
import Verif.Spec.Parity
import Verif.Proofs.LengthChecksum
import Verif.Props.LengthChecksum
import Verif.Props.Lengths
import Verif.Model.Reread
import Verif.Proofs.Reread
import Verif.Props.Reread
import Verif.Spec.MapPaged
import Verif.Proofs.MapPaged
import Verif.Props.MapCapacity
import Verif.Props.MapTypes
import Verif.Props.Decode
import Verif.Props.EraseAll
import Verif.Spec.Erases
import Verif.Proofs.Erases
import Verif.Props.Erases
import Verif.Spec.MapErases
import Verif.Proofs.MapErases
import Verif.Props.MapErases
import Verif.Proofs.Leaves
import Verif.Props.Reading
import Verif.Model.SharedUse
import Verif.Proofs.SharedQueue
import Verif.Props.SharedQueue
import Verif.Proofs.Answers
import Verif.Props.Answers
import Verif.Model.SharedFail
import Verif.Spec.Repeats
import Verif.Proofs.SharedFail
import Verif.Props.SharedFail
import Verif.Proofs.Cost
import Verif.Props.Cost
import Verif.Props.Print
import Verif.Props.Program
import Verif.Proofs.Reserve
import Verif.Proofs.ReserveMap
import Verif.Props.Reserve
import Verif.Props.QuietReserve
import Verif.Proofs.Cut
import Verif.Proofs.CutMap
import Verif.Props.SmallBuffer
import Verif.Proofs.CutQueue
import Verif.Props.SmallBufferQueue
import Verif.Proofs.Blind
import Verif.Props.Scratch
