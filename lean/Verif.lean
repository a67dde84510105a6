import Verif.Basic
import Verif.Heap.Allocator
import Verif.Heap.Align
import Verif.Heap.ThreadsProps
import Verif.Heap.ThreadsAccess
import Verif.Heap.FailSafe
import Verif.Heap.CopyProps
import Verif.Heap.Vectors
import Verif.Data.Props
import Verif.Packet.Pointers
import Verif.Packet.Props
import Verif.Packet.Padded
import Verif.Packet.Frame
import Verif.Observer.Props
import Verif.Observer.RemovalProps
import Verif.Observer.Dynamic
import Verif.Observer.Threads
import Verif.Observer.Progress
import Verif.Observer.CallbacksProps
import Verif.Observer.Seen
import Verif.Observer.CompileTime
import Verif.Observer.WorldProps
import Verif.Observer.ThrowsProps
import Verif.Observer.ThrowsAgree
import Verif.Observer.Fatal
import Verif.Observer.StaticFatal
import Verif.Observer.WorldAgree
import Verif.Observer.UnboundProps
import Verif.Observer.WorldSeen
import Verif.Observer.UnboundSeen
import Verif.Observer.StaticThreadsMore
import Verif.Observer.FixedThreadsProps
import Verif.Observer.FixedThreadsRace
import Verif.Observer.FixedThreadsDemo
import Verif.Observer.FixedThreadsAccess
import Verif.Values.Threads
import Verif.Values.DynRemoval
import Verif.Values.ReentrantProps
import Verif.Values.Seen
import Verif.Values.Removal
import Verif.Values.DynReentrantProps
import Verif.Values.RacesDemo
import Verif.Values.Locked
import Verif.Values.Access
import Verif.Values.Agree
import Verif.Values.LifeProps
import Verif.Values.WorldSeen
import Verif.Values.WorldAgree
import Verif.Values.WorldAgreeDyn
import Verif.Values.ReplaceProps
import Verif.Values.Fatal
import Verif.Values.DynFatal
import Verif.Mediator.Props
import Verif.Mediator.Dynamic
import Verif.Mediator.DynamicLemmas
import Verif.Mediator.DynamicProps
import Verif.Mediator.Seen
import Verif.Mediator.Agree
import Verif.Mediator.MemorySafe
import Verif.Apart
import Verif.Mediator.Threads
import Verif.Mediator.ThreadsProps
import Verif.Mediator.ThreadsDemo
import Verif.Mediator.ThreadsRace
import Verif.Mediator.ThreadsAccess
import Verif.Pipeline.Props
import Verif.Pipeline.PoolProps
import Verif.Pipeline.PoolDrain
import Verif.Pipeline.Net
import Verif.Pipeline.NetProps
import Verif.HappensBefore
import Verif.Pipeline.Races
import Verif.Pipeline.RacesProps
import Verif.Pipeline.MonitorProps
import Verif.Pipeline.RacesDemo
import Verif.Pipeline.PoolRaces
import Verif.Pipeline.PoolRacesProps
import Verif.Pipeline.PoolVisible
import Verif.Pipeline.PoolRacesDemo
import Verif.Pipeline.PoolPush
import Verif.Pipeline.PoolPushProps
import Verif.Pipeline.PoolPushDrain
import Verif.Pipeline.PoolPushAgree
import Verif.Pipeline.PoolCalm
import Verif.Pipeline.RacesDeaf
import Verif.Pipeline.StageLife
import Verif.Pipeline.StageLifeProps
import Verif.Pipeline.StageLifeDemo
import Verif.Pipeline.Late
import Verif.Pipeline.LateProps
import Verif.Pipeline.PoolLate
import Verif.Pipeline.PoolLateProps
import Verif.Pipeline.Start
import Verif.Pipeline.StartProps
import Verif.Pipeline.Access
import Verif.Interval.Props
import Verif.Interval.ClockProps
import Verif.Interval.Races
import Verif.Interval.RacesLemmas
import Verif.Interval.RacesProps
import Verif.Interval.PeriodProps
import Verif.Interval.RacesDemo
import Verif.Interval.BetweenProps
import Verif.Interval.Access
import Verif.Lru.Props
import Verif.Lru.Get
import Verif.Lru.Threads
import Verif.Lru.ThreadsProps
import Verif.Lru.ThrowsProps
import Verif.Lru.ThreadsAccess
import Verif.Argv.Props
import Verif.Pimpl.Props
import Verif.Mediator.CopiesProps
import Verif.Argv.Order
import Verif.Packet.Edits
import Verif.Packet.Together
import Verif.Mediator.CopiesAgree
import Verif.Pipeline.PoolThrow
import Verif.Interval.Throw
