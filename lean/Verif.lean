import Verif.Base
import Verif.Algorithm.Iter
import Verif.Algorithm.ReadOnly
import Verif.Algorithm.Cells
import Verif.Algorithm.ReadOnlyProps
import Verif.Order
import Verif.Algorithm.ReadOnlyProps2
import Verif.Algorithm.Mutating
import Verif.Algorithm.CellsLemmas
import Verif.Algorithm.MutatingProps
import Verif.Algorithm.SortedProps
import Verif.Algorithm.Alias
import Verif.Bitset.Model
import Verif.Bitset.Lemmas
import Verif.Bitset.Props
import Verif.Bitset.Props2
import Verif.Rb.Model
import Verif.Rb.Tree
import Verif.Rb.Local
import Verif.Rb.Zipper
import Verif.Rb.Balance
import Verif.Rb.Insert
import Verif.Rb.Delete
import Verif.Rb.Remove
import Verif.Rb.Walk
import Verif.Rb.Copy
import Verif.Rb.MapModel
import Verif.Rb.Owns
import Verif.Rb.OwnsMut
import Verif.Rb.World
import Verif.Sim
import Verif.Rb.MapSpec
import Verif.Rb.MapSim
import Verif.Rb.MapStep
import Verif.Rb.MapProps
import Verif.Rb.SetSpec
import Verif.Rb.SetProps
import Verif.Rb.Reach
import Verif.Rb.ContainerProps
import Verif.Rb.ContainerProps2
import Verif.Rb.Compare
import Verif.Rb.Multi
import Verif.Rb.Any
import Verif.Rb.AnyProps
import Verif.Rb.Weak
import Verif.Rb.WeakErase
import Verif.Rb.RefModel
import Verif.Rb.Ref
import Verif.Rb.Header
import Verif.Rb.At
import Verif.Rb.Range
import Verif.Limit
import Verif.Seq.Heap
import Verif.Seq.Path
import Verif.Seq.ListModel
import Verif.Seq.Chain
import Verif.Seq.Chain2
import Verif.Seq.Ring
import Verif.Seq.RingOps
import Verif.Seq.RingOps2
import Verif.Seq.RingOps3
import Verif.Seq.ListApi
import Verif.Seq.ListStep
import Verif.Seq.ListStep2
import Verif.Seq.ListProps
import Verif.Seq.ListProps2
import Verif.Seq.ListProps3
import Verif.Seq.ListProps4
import Verif.Seq.ListProps5
import Verif.Seq.ListMerge
import Verif.Seq.Common
import Verif.Seq.SlistModel
import Verif.Seq.SPath
import Verif.Seq.SOps
import Verif.Seq.SOps2
import Verif.Seq.SWorld
import Verif.Seq.FwdApi
import Verif.Seq.FwdStep
import Verif.Seq.FwdStep2
import Verif.Seq.FwdStep3
import Verif.Seq.FwdStep4
import Verif.Seq.FwdProps
import Verif.Seq.FwdProps2
import Verif.Seq.FwdProps3
import Verif.Seq.BwdApi
import Verif.Seq.BwdStep
import Verif.Seq.BwdStep2
import Verif.Seq.BwdProps
import Verif.Seq.BwdProps2
import Verif.Seq.BwdProps3
import Verif.Seq.Stable
import Verif.Seq.LazyModel
import Verif.Seq.LazyChain
import Verif.Seq.LazyOps
import Verif.Seq.LazyApi
import Verif.Seq.LazyStep
import Verif.Seq.LazyStep2
import Verif.Seq.LazyProps
import Verif.Seq.LazyProps2
import Verif.Seq.Run
import Verif.Seq.RunList
import Verif.Seq.RunFwd
import Verif.Seq.RunBwd
import Verif.Seq.RunLazy
import Verif.Vec.Heap
import Verif.Vec.Model
import Verif.Vec.Loops
import Verif.Vec.Ops
import Verif.Vec.Ops2
import Verif.Vec.Api
import Verif.Vec.Step
import Verif.Vec.Props
import Verif.Vec.Alias
import Verif.Vec.Props2
import Verif.Vec.FModel
import Verif.Vec.FLoops
import Verif.Vec.FSwap
import Verif.Vec.FApi
import Verif.Vec.FProps
import Verif.Vec.MachModel
import Verif.Vec.Mach
import Verif.Vec.MachProps
import Verif.Vec.FMachModel
import Verif.Vec.FMachProps
import Verif.Exc.Cost
import Verif.Exc.VecCost
import Verif.Exc.VecCost2
import Verif.Map.SGrowth
import Verif.Map.SModel
import Verif.Map.SInv
import Verif.Map.SOps
import Verif.Map.SIns
import Verif.Map.SGrow
import Verif.Map.SLife
import Verif.Map.SApi
import Verif.Map.SProps
import Verif.Map.SProps2
import Verif.Map.SAny
import Verif.Map.SAnyProps
import Verif.Map.SWeak
import Verif.Map.VModel
import Verif.Map.VProps
import Verif.Map.VProps2
import Verif.Util.ArrayModel
import Verif.Util.ArrayProps
import Verif.Util.Pair
import Verif.Util.Traits
import Verif.Util.Functional
import Verif.Util.OverloadProps
import Verif.Algorithm.Generic
import Verif.Algorithm.Window
import Verif.Algorithm.GenericProps
import Verif.Algorithm.GenericProps2
import Verif.Algorithm.GenericProps3
import Verif.Algorithm.Nodes
import Verif.Algorithm.Presents
import Verif.Algorithm.OnLists
import Verif.Algorithm.OnLists2
import Verif.Algorithm.OnArrays
import Verif.Algorithm.OnTrees
import Verif.Algorithm.OnContainers
import Verif.Exc.Base
import Verif.Exc.ListModel
import Verif.Exc.List
import Verif.Exc.ListProps
import Verif.Exc.ListCtor
import Verif.Exc.ListCost
import Verif.Exc.SlistCost
import Verif.Exc.FvCost
import Verif.Exc.VecModel
import Verif.Exc.Vec
import Verif.Exc.VecFrame
import Verif.Exc.VecOps
import Verif.Exc.VecSim
import Verif.Exc.VecCalls
import Verif.Exc.VecProps
import Verif.Exc.RbModel
import Verif.Exc.Cover
import Verif.Exc.RbCover
import Verif.Exc.RbHolds
import Verif.Exc.RbThrows
import Verif.Exc.RbErase
import Verif.Exc.RbAssign
import Verif.Exc.RbProps
import Verif.Exc.RbHist
import Verif.Exc.RbBad
import Verif.Exc.SModel
import Verif.Exc.SCover
import Verif.Exc.SThrows
import Verif.Exc.SProps
import Verif.Exc.SBad
import Verif.Exc.SCost
import Verif.Exc.FwdModel
import Verif.Exc.FwdLoops
import Verif.Exc.Fwd
import Verif.Exc.FwdCtor
import Verif.Exc.Bwd
import Verif.Exc.SeqFrame
import Verif.Exc.LazyModel
import Verif.Exc.LazyLoops
import Verif.Exc.Lazy
import Verif.Exc.LazyCalls
import Verif.Exc.LazyHist
import Verif.Exc.LazyProps
import Verif.Exc.FvModel
import Verif.Exc.Fv
import Verif.Exc.FvOps
import Verif.Exc.FvSwap
import Verif.Exc.FvHist
import Verif.Exc.FvProps
import Verif.Exc.VmModel
import Verif.Exc.VmProps
import Verif.Exc.VmHist
import Verif.Exc.VmCost
import Verif.Exc.ListFrame
import Verif.Exc.Lost
import Verif.Exc.ListLost
import Verif.Exc.SlistFrame
import Verif.Exc.FwdLost
import Verif.Exc.BwdLost
import Verif.Exc.RbCost
import Verif.Exc.RbIndex
import Verif.Exc.AlgoModel
import Verif.Exc.AlgoProps
import Verif.Exc.AlgoWrites
import Verif.Exc.AlgoWrites2
import Verif.Exc.AlgoClient
import Verif.Exc.AlgoSearch
import Verif.Exc.AlgoSearchProps
import Verif.Rb.Edit
import Verif.Rb.Steps
import Verif.Rb.StepsProps
import Verif.Rb.Confine
import Verif.Rb.ConfineProps
import Verif.Exc.SeqConfine
import Verif.Exc.VecConfine
import Verif.Exc.FvConfine
import Verif.Exc.SmConfine
import Verif.Exc.VmConfine
import Verif.Exc.ThrowConfine
import Verif.Exc.VecThrowConfine
import Verif.Exc.FvThrowConfine
import Verif.Exc.RbThrowConfine
