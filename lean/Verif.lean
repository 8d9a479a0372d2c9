import Verif.Base
import Verif.Termination
import Verif.Resolver.Props
import Verif.Queue.Props
import Verif.Recurring.Props
import Verif.Sequenced.Props
import Verif.Barrier.Props
import Verif.WaitGroup.Props
import Verif.Promise.Props
import Verif.Promise.HandlesProps
import Verif.PostAck.Props
import Verif.PostAck.HandlesProps
import Verif.Erase.Props
import Verif.Mutex.Props
import Verif.SharedMutex.Props
import Verif.Mutex.AdmitProps
import Verif.SharedMutex.AdmitProps
import Verif.OneshotPrim.Props
import Verif.Callback.Props
import Verif.Suspend.Props
import Verif.WithCancel.Props
import Verif.Tree.Props
import Verif.Tree.LifeProps
import Verif.Result.Props
import Verif.Generator.Props
import Verif.Owner.Props
import Verif.Run.Props
import Verif.Detach.Props
import Verif.Detached.Props
import Verif.Callback.Destroy
import Verif.Destroy.Event
import Verif.Destroy.EventDemo
import Verif.Resolver.Account
import Verif.Mutex.Destroy
import Verif.SharedMutex.Destroy
import Verif.OneshotPrim.Destroy
import Verif.Destroy.Object
import Verif.Destroy.ObjectDemo
import Verif.Destroy.Callers
import Verif.Compose.FamilyProps
import Verif.Compose.FamilyLaws
import Verif.Compose.JointModel
import Verif.Compose.JointTree
import Verif.Compose.JointRes
import Verif.Compose.Split
import Verif.Compose.Joint
import Verif.Compose.JointSim
import Verif.Compose.JointProps
import Verif.Destroy.PostAck
import Verif.Hb.Order
import Verif.Hb.Mutex
import Verif.Hb.SharedMutex
import Verif.Hb.Queue
import Verif.Hb.WaitGroup
import Verif.Hb.Promise
import Verif.Hb.RefCount
import Verif.Hb.Recurring
import Verif.Hb.Sequenced
import Verif.Hb.Barrier
import Verif.Hb.Result
import Verif.Hb.OneshotPrim
import Verif.Hb.PostAck
import Verif.Hb.Tree
import Verif.Hb.WithCancel
import Verif.Hb.Suspend
import Verif.Hb.Callback
import Verif.Hb.Run
import Verif.Run.Forever
import Verif.Hb.MutexQueue
import Verif.Hb.SharedMutexQueue
import Verif.Sc.Props
import Verif.Sc.Demo
import Verif.Liveness.Props
import Verif.Handout.Model
import Verif.Handout.Proof
import Verif.Handout.Props
import Verif.Depth.Base
import Verif.Depth.Tree
import Verif.Depth.Result
import Verif.Depth.Props
import Verif.Locks.Model
import Verif.Locks.Proof
import Verif.Locks.Props
import Verif.Env.Model
import Verif.Env.Spec
import Verif.Env.Proof
import Verif.Env.Props
import Verif.Calls.Spec
import Verif.Calls.Proof
import Verif.Calls.Props
import Verif.Promise.Alloc
import Verif.Promise.AllocProps
import Verif.Locks.SectionSpec
import Verif.Locks.Swap
import Verif.Locks.Sections
import Verif.Locks.Once
import Verif.Locks.SectionProps
import Verif.WakeOrder.Spec
import Verif.WakeOrder.Proof
import Verif.WakeOrder.Lines
import Verif.WakeOrder.Prim
import Verif.WakeOrder.Props
import Verif.Fields.Spec
import Verif.Fields.Proof
import Verif.Fields.Props
import Verif.Sc.Part
import Verif.Sc.PartProps
import Verif.Sc.PartDemo
import Verif.Prog.Model
import Verif.Prog.CoFacts
import Verif.Prog.TreeFacts
import Verif.Prog.Link
import Verif.Prog.Sim
import Verif.Prog.Spec
import Verif.Prog.Props
import Verif.Prog.Demo
import Verif.CallCount
import Verif.Effect.Resolver
import Verif.Effect.Counts
import Verif.Effect.Props
import Verif.Effect.Callback
import Verif.Effect.Suspend
import Verif.Effect.WithCancel
import Verif.Effect.Mutex
import Verif.Effect.SharedMutex
import Verif.Effect.Oneshot
import Verif.Hb.Baton
import Verif.Hb.Generator
import Verif.Hb.Detached
import Verif.Hb.Steps
import Verif.Hb.GeneratorSteps
import Verif.Hb.DetachedSteps
import Verif.Hb.ResultSteps
import Verif.Linear.Queue
import Verif.Linear.Promise
import Verif.Linear.WaitGroup
import Verif.Linear.Mutex
import Verif.Linear.SharedMutex
import Verif.Linear.OneshotPrim
import Verif.Promise.OwnerProps
import Verif.Width.Props
import Verif.Width.CounterProps
import Verif.Width.ResolverProps
import Verif.Width.PostSeqProps
import Verif.Width.HandlesProps
import Verif.Mutex.TryProps
import Verif.SharedMutex.TryProps
