import Verif.Swsr.Props
import Verif.SwsrConc.Props
import Verif.Lamport.Props
import Verif.Uswsr.Props
import Verif.Uswsr.SeqProps
import Verif.Dynqueue.Props
import Verif.Pow2.Props
import Verif.Mpmc.Props
import Verif.Locks.Tas
import Verif.Locks.Clh
import Verif.Locks.Barrier
import Verif.Svector.Props
import Verif.Squeue.Props
import Verif.Iclhash.Props
import Verif.Slist.Props
import Verif.Node.Comb
import Verif.Farm.A2a
import Verif.Farm.OfarmLive
import Verif.Farm.OdfarmLive
import Verif.Freeze.Protocol
import Verif.Parfor.Reduce
import Verif.Mdf.Mem
import Verif.Mdf.Ring
import Verif.Alloc.Static
import Verif.Alloc.Class
import Verif.Alloc.Slab
import Verif.Alloc.SlabInv
import Verif.Alloc.SlabStep
import Verif.Alloc.SlabStep2
import Verif.Alloc.SlabStep3
import Verif.Alloc.SlabStep4
import Verif.Alloc.SlabStep5
import Verif.Alloc.SlabThm
import Verif.Mapper.Model
import Verif.Mapper.Props
import Verif.Net.Io
import Verif.Stencil.Model
import Verif.Stencil.Props
import Verif.Stencil.Par
import Verif.Selector
import Verif.Net.Wire
import Verif.Net.SenderModel
import Verif.Net.SenderProps
import Verif.Net.Sender
import Verif.Net.Receiver
import Verif.Net.Route
import Verif.Node.Blocking
import Verif.Dc.Model
import Verif.Dc.Table
import Verif.Dc.Mem
import Verif.Dc.Links
import Verif.Dc.Rep
import Verif.Dc.Recv
import Verif.Dc.Sched
import Verif.Dc.Inv
import Verif.Dc.Step
import Verif.Dc.Start
import Verif.Dc.Bound
import Verif.Dc.Spec
import Verif.Dc.Thm
import Verif.Farm.Master
import Verif.Farm.MasterInv
import Verif.Farm.MasterLive
import Verif.Farm.MasterThm
import Verif.Farm.MasterEnd
import Verif.Node.AccelThm
import Verif.Msq.Aba
import Verif.Opt.Level1Eq
import Verif.Pool.UmpmcThm
import Verif.Pool.All
import Verif.Node.InitFail
import Verif.Farm.InitFail
import Verif.Dist.Groups
import Verif.Dist.Counter
import Verif.Dist.Local
import Verif.Farm.AccelThm
import Verif.Grp.Ex
import Verif.Tlq.Ex
import Verif.Ring.Ex
import Verif.Life.Ex
import Verif.SerBuf.Thm
import Verif.Evolution.Thm
import Verif.Own.Model
import Verif.Own.Spec
import Verif.Own.Inv
import Verif.Own.Step
import Verif.Own.Pipe
import Verif.Own.FarmC
import Verif.Own.RestC
import Verif.Own.RewriteC
import Verif.Own.Flatten
import Verif.Own.Thm
import Verif.Opt.CombineC
import Verif.Opt.FarmsC
import Verif.Farm.Cofarm
import Verif.Opt.Ofarm
import Verif.Msgq.Model
import Verif.Msgq.Thm
import Verif.Msgq.C
import Verif.Gsearch.Model
import Verif.Gsearch.All
import Verif.Gsearch.C
import Verif.Gsearch.One
import Verif.Gsearch.Absent
import Verif.Locks.CondBarrier
import Verif.Uswsr.Multi
import Verif.Uswsr.MultiC
import Verif.Parfor.Pipe
import Verif.Parfor.PipeC
import Verif.Parfor.SpinEnd
import Verif.Parfor.SpinEndC
import Verif.Dist.Bytes
import Verif.Dist.Endpoint
import Verif.Parfor.SpinFine
import Verif.Parfor.SpinFineC
import Verif.Parfor.SpinFineD
import Verif.Repara.Command
import Verif.Repara.Schedule
import Verif.Repara.Param
