import Verif.Io.CancelProps
import Verif.Io.TransferProps
import Verif.Chan.PropsOrder
import Verif.Chan.PropsValues
import Verif.Chan.PropsClose
import Verif.Chan.ExactProps
import Verif.Chan.TurnSpec
import Verif.Chan.Turn
import Verif.Chan.TurnProps
import Verif.Chan.LateLemmas
import Verif.Chan.LateFifo
import Verif.Chan.LateProps
import Verif.Chan.ExactLemmas
import Verif.Chan.LostLemmas
import Verif.Chan.ForProps
import Verif.VChan.Props
import Verif.VChan.TurnSpec
import Verif.VChan.Turn
import Verif.VChan.TurnProps
import Verif.Mem.SboProps
import Verif.Mem.MonoProps
import Verif.Mem.FrameProps
import Verif.Comb.PropsLife
import Verif.Comb.ExactProps
import Verif.Comb.PropsResult
import Verif.Comb.PropsRace
import Verif.Comb.PropsCancel
import Verif.Comb.Told
import Verif.Comb.Mute
import Verif.Comb.ToldProps
import Verif.Comb.FramesProps
import Verif.Prom.Props
import Verif.Prom.ExactSpec
import Verif.Prom.ExactProps
import Verif.Prom.AttProps
import Verif.Prom.InterProps
import Verif.Task.Props
import Verif.Task.SpawnLemmas
import Verif.Task.ExactSpec
import Verif.Task.ExactProps
import Verif.Gen.Props
import Verif.Gen.PushProps
import Verif.Gen.KeptLemmas
import Verif.Gen.KeptStep
import Verif.Gen.KeptUb
import Verif.Gen.KeptProps
import Verif.Gen.TrueLemmas
import Verif.Gen.TrueProps
import Verif.Group.Props
import Verif.Group.ExactLemmas
import Verif.Group.ExactProps
import Verif.Oper.Props
import Verif.Oper.ExactProps
import Verif.With.Props
import Verif.Endp.Props
import Verif.Thr.Props
import Verif.Thr.FrameProps
import Verif.Run.Props
import Verif.Main.Props
import Verif.File.Props
import Verif.Result.Props
import Verif.Args.Props
import Verif.Cst.Props
import Verif.Hnd.Props
import Verif.Ssl.Props
import Verif.Time.Props
import Verif.Obj.Props
import Verif.Desc.Props
import Verif.Endp.AdoptProps
import Verif.Ctx.Props
import Verif.Err.Props
import Verif.Cmp.Props
import Verif.Casc.Props
import Verif.Xthr.Props
import Verif.Acc.Props
import Verif.Fin.Props
import Verif.Chan.DtorProps
import Verif.Comb.FormsProps
import Verif.Lost.Props
import Verif.Rep.Props
import Verif.With.FormsProps
import Verif.With.LifeProps
import Verif.Thr.CancelProps
import Verif.Gen.MoveProps
import Verif.Gen.ForProps
import Verif.Prom.ForProps
import Verif.Inc.Props
import Verif.Inc.XferProps
import Verif.Comb.TreeProps
import Verif.Comb.TreeTxn
import Verif.Comb.TreeInner
import Verif.Chan.RaceModel
import Verif.Chan.RaceLemmas
import Verif.Chan.RaceInv
import Verif.Chan.RaceProps
import Verif.Chan.Queue
import Verif.Chan.QueueLemmas
import Verif.VChan.QueueSpec
import Verif.VChan.QueueLemmas
import Verif.Chan.OrderProps
import Verif.Again.Model
import Verif.Again.Quiet
import Verif.Again.Stack
import Verif.Again.Spec
import Verif.Again.Inv
import Verif.Again.Run
import Verif.Again.Gen
import Verif.Again.Stream
import Verif.Again.Fair
import Verif.Again.Wait
import Verif.Again.Props
import Verif.Again.Prom
import Verif.Again.PromProps
import Verif.Again.PromOnly
import Verif.Nurse.Model
import Verif.Nurse.Spec
import Verif.Nurse.Inv
import Verif.Nurse.Hist
import Verif.Nurse.Run
import Verif.Nurse.Props
import Verif.Pipe.Model
import Verif.Pipe.Spec
import Verif.Pipe.Stat
import Verif.Pipe.Inv
import Verif.Pipe.Link
import Verif.Pipe.Facts
import Verif.Pipe.Props
import Verif.Order.Model
import Verif.Order.Reach
import Verif.Order.Lemmas
import Verif.Order.Spec
import Verif.Order.Props
import Verif.Chan.WakeLemmas
import Verif.Chan.WakeSpec
import Verif.Chan.WakeStep
import Verif.Chan.WakeProps
import Verif.Chan.WakeLateProps
import Verif.VChan.WakeLemmas
import Verif.VChan.WakeSpec
import Verif.VChan.WakeStep
import Verif.VChan.WakeProps
import Verif.VChan.WakeLateProps
import Verif.Lock.Model
import Verif.Lock.Spec
import Verif.Lock.Inv
import Verif.Lock.Step
import Verif.Lock.Run
import Verif.Lock.Props
import Verif.Lock.LateProps
import Verif.Tmo.Model
import Verif.Tmo.Spec
import Verif.Tmo.Race
import Verif.Tmo.Inv
import Verif.Tmo.Quick
import Verif.Tmo.Props
import Verif.Chan.RoomProps
import Verif.Disp.Model
import Verif.Disp.Spec
import Verif.Disp.Race
import Verif.Disp.Gen
import Verif.Disp.Chan
import Verif.Disp.Chan2
import Verif.Disp.Chan3
import Verif.Disp.Inv
import Verif.Disp.Room
import Verif.Disp.Props
import Verif.Pool.Model
import Verif.Pool.Spec
import Verif.Pool.Plain
import Verif.Pool.Inv
import Verif.Pool.Safe
import Verif.Pool.Eqs
import Verif.Pool.Bad
import Verif.Pool.Props
import Verif.Lfq.Model
import Verif.Lfq.Spec
import Verif.Lfq.Lemmas
import Verif.Lfq.Track
import Verif.Lfq.Bad
import Verif.Lfq.Props
import Verif.Sig.Model
import Verif.Sig.Spec
import Verif.Sig.Lemmas
import Verif.Sig.Track
import Verif.Sig.Props
import Verif.Early.Model
import Verif.Early.Spec
import Verif.Early.Lemmas
import Verif.Early.Order
import Verif.Early.Props
import Verif.Limit.Model
import Verif.Limit.Spec
import Verif.Limit.Lemmas
import Verif.Limit.Props
import Verif.Py.Model
import Verif.Py.Spec
import Verif.Py.Lemmas
import Verif.Py.Fut
import Verif.Py.Props
import Verif.Ctx.Layout
import Verif.Ctx.LayoutProps
import Verif.Gen.ChainModel
import Verif.Gen.ChainSpec
import Verif.Gen.ChainLemmas
import Verif.Gen.ChainInv
import Verif.Gen.ChainRun
import Verif.Gen.ChainAhead
import Verif.Gen.ChainCount
import Verif.Gen.ChainProps
import Verif.Net.Plain
import Verif.Net.Model
import Verif.Net.Spec
import Verif.Net.Link
import Verif.Net.Inv
import Verif.Net.Run
import Verif.Net.Facts
import Verif.Net.Det
import Verif.Net.Ends
import Verif.Net.Props
import Verif.Net.TreeSpec
import Verif.Net.Tree
import Verif.Net.TreeProps
import Verif.Fork.Model
import Verif.Fork.Spec
import Verif.Fork.Shape
import Verif.Fork.Inv
import Verif.Fork.Run
import Verif.Fork.Eval
import Verif.Fork.Ends
import Verif.Fork.Props
import Verif.Tree.Model
import Verif.Tree.Spec
import Verif.Tree.Shape
import Verif.Tree.Emit
import Verif.Tree.Inv
import Verif.Tree.Run
import Verif.Tree.Wind
import Verif.Tree.Props
import Verif.Own.Model
import Verif.Own.Spec
import Verif.Own.Mono
import Verif.Own.Inv
import Verif.Own.Keep
import Verif.Own.Props
import Verif.Stk.Model
import Verif.Stk.Spec
import Verif.Stk.Lemmas
import Verif.Stk.Props
import Verif.Conf.Chan
import Verif.Conf.VChan
import Verif.Conf.Gen
import Verif.Conf.Comb
import Verif.Conf.Rest
import Verif.Hub.Model
import Verif.Hub.Spec
import Verif.Hub.Lemmas
import Verif.Hub.Inv
import Verif.Hub.Facts
import Verif.Hub.Ends
import Verif.Hub.Props
import Verif.Rpc.Model
import Verif.Rpc.Spec
import Verif.Rpc.Lemmas
import Verif.Rpc.Ends
import Verif.Rpc.Find
import Verif.Rpc.Props
import Verif.Io.ReuseModel
import Verif.Io.ReuseSpec
import Verif.Io.ReuseLemmas
import Verif.Io.ReuseProps
import Verif.Loop.Model
import Verif.Loop.Spec
import Verif.Loop.Lemmas
import Verif.Loop.Rounds
import Verif.Loop.Props
import Verif.Src.Model
import Verif.Src.Spec
import Verif.Src.Lemmas
import Verif.Src.Steps
import Verif.Src.Props
import Verif.Strand.Model
import Verif.Strand.Spec
import Verif.Strand.Lemmas
import Verif.Strand.Props
import Verif.Resv.Model
import Verif.Resv.Spec
import Verif.Resv.Lemmas
import Verif.Resv.Hist
import Verif.Resv.Props
import Verif.Nest.Model
import Verif.Nest.Spec
import Verif.Nest.Lemmas
import Verif.Nest.Late
import Verif.Nest.Props
import Verif.Objs.Model
import Verif.Objs.Spec
import Verif.Objs.Eqs
import Verif.Objs.Inv
import Verif.Objs.Keep
import Verif.Objs.Props
import Verif.File.WholeModel
import Verif.File.WholeSpec
import Verif.File.WholeLemmas
import Verif.File.WholeProps
import Verif.BufVal.Model
import Verif.BufVal.Spec
import Verif.BufVal.Lemmas
import Verif.BufVal.Runs
import Verif.BufVal.Props
import Verif.BufVal.UnionProps
import Verif.Lock.Phase
import Verif.Dead.Model
import Verif.Dead.Spec
import Verif.Dead.Lemmas
import Verif.Dead.Props
import Verif.Lock.TurnSpec
import Verif.Lock.TurnLemmas
import Verif.Lock.TurnProps
import Verif.Echo.Model
import Verif.Echo.Spec
import Verif.Echo.Lemmas
import Verif.Echo.Props
import Verif.Lock.RetrySpec
import Verif.Lock.RetryLemmas
import Verif.Lock.RetryProps
import Verif.Shared.Model
import Verif.Shared.Spec
import Verif.Shared.Lemmas
import Verif.Shared.Inv
import Verif.Shared.ExactLemmas
import Verif.Shared.Waits
import Verif.Shared.Props
import Verif.SigSet.Model
import Verif.SigSet.Spec
import Verif.SigSet.Lemmas
import Verif.SigSet.Balance
import Verif.SigSet.Order
import Verif.SigSet.Reason
import Verif.SigSet.Props
import Verif.Net.MeetSpec
import Verif.Net.Meet
import Verif.Net.Meet2
import Verif.Net.BarSpec
import Verif.Net.Bar
import Verif.Net.Meet3
import Verif.Net.MeetProps
import Verif.Net.PassSpec
import Verif.Net.Pass
import Verif.Net.Trunc
import Verif.Net.PassProps
import Verif.Same.Spec
import Verif.Same.Step
import Verif.Same.Run
import Verif.Same.Props
import Verif.Same.Closed
import Verif.Same.ClosedRun
import Verif.Same.ClosedProps
import Verif.Same.TurnProps
import Verif.VNet.Model
import Verif.VNet.Spec
import Verif.VNet.Sim
import Verif.VNet.Count
import Verif.VNet.Props
import Verif.VNet.CountSpec
import Verif.VNet.Sema
import Verif.VNet.SemaProps
