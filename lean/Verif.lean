import Verif.Base
import Verif.Vector
import Verif.VectorLemmas
import Verif.Spec.Vector
import Verif.VectorWorld
import Verif.Props.Vector
import Verif.VectorRefs
import Verif.Props.VectorRefs
import Verif.Partial
import Verif.VectorCost
import Verif.Props.VectorCost
import Verif.Props.VectorOom
import Verif.Spec.VectorInt
import Verif.VectorInt
import Verif.Props.VectorInt
import Verif.VectorPool
import Verif.VectorPoolSim
import Verif.Spec.VectorPool
import Verif.VectorPoolWorld
import Verif.Props.VectorPool
import Verif.VectorDirect
import Verif.Spec.VectorDirect
import Verif.VectorDirectWorld
import Verif.Props.VectorDirect
import Verif.HeapCost
import Verif.Props.HeapAccess
import Verif.Props.HeapLimit
import Verif.Props.HeapCost
import Verif.Stack
import Verif.Props.Stack
import Verif.Props.StackOn
import Verif.Heap
import Verif.Spec.Heap
import Verif.HeapLemmas
import Verif.HeapOps
import Verif.HeapSort
import Verif.HeapWorld
import Verif.Props.Heap
import Verif.XValueStack
import Verif.Props.XValueStack
import Verif.DisjointSet
import Verif.Spec.DisjointSet
import Verif.DisjointSetLemmas
import Verif.DisjointSetExact
import Verif.DisjointSetCost
import Verif.Props.DisjointSet
import Verif.Props.DisjointSetCost
import Verif.Props.DisjointSetArgs
import Verif.BasicString
import Verif.Spec.BasicString
import Verif.BasicStringLemmas
import Verif.Props.BasicString
import Verif.Props.StringMixed
import Verif.TreeIter
import Verif.Props.TreeIter
import Verif.FixedArray
import Verif.Spec.FixedArray
import Verif.FixedArrayLemmas
import Verif.Props.FixedArray
import Verif.Iterator
import Verif.Props.Iterator
import Verif.AllocSpec
import Verif.Props.AllocSpec
import Verif.Utils
import Verif.Props.Utils
import Verif.Algorithm
import Verif.Props.Algorithm
import Verif.RoundUp
import Verif.Props.RoundUp
import Verif.LinkedList
import Verif.LinkedListLemmas
import Verif.LinkedListWorld
import Verif.DList
import Verif.Spec.DList
import Verif.DListLemmas
import Verif.Props.DList
import Verif.SList
import Verif.Spec.SList
import Verif.SListLemmas
import Verif.Props.SList
import Verif.Deque
import Verif.Spec.Deque
import Verif.DequeLemmas
import Verif.DequeGrow
import Verif.DequeResize
import Verif.DequeOps
import Verif.DequeWorld
import Verif.DequeDefects
import Verif.DequeCost
import Verif.Props.Deque
import Verif.Props.DequeCost
import Verif.Queue
import Verif.Props.Queue
import Verif.Props.QueueValues
import Verif.Tree
import Verif.Spec.Tree
import Verif.TreeLemmas
import Verif.TreeWalk
import Verif.Props.Tree
import Verif.TreeWorld
import Verif.TreeWorldLemmas
import Verif.AVLTree
import Verif.AVLWorld
import Verif.Spec.AVLTree
import Verif.AVLFun
import Verif.AVLPtr
import Verif.AVLInsert
import Verif.AVLSwap
import Verif.AVLDelete
import Verif.AVLErase
import Verif.AVLWorldLemmas
import Verif.AVLCopies
import Verif.Props.AVLTree
import Verif.Props.AVLRefs
import Verif.TreeWorldSized
import Verif.BST
import Verif.BSTWorld
import Verif.BSTFun
import Verif.BSTLemmas
import Verif.Spec.BST
import Verif.BSTWorldLemmas
import Verif.BSTSafety
import Verif.BSTTwo
import Verif.Props.BST
import Verif.Props.TreeLookup
import Verif.Map
import Verif.Spec.Map
import Verif.MapLemmas
import Verif.Props.Map
import Verif.SMA
import Verif.Spec.SMA
import Verif.SMALemmas
import Verif.SMAInv
import Verif.SMAOps
import Verif.SMAMerge
import Verif.SMAWorld
import Verif.SMAFacts
import Verif.Props.SMA
import Verif.EmbeddedList
import Verif.Spec.EmbeddedList
import Verif.EmbeddedListLemmas
import Verif.Props.EmbeddedList
import Verif.Spec.SMATrace
import Verif.Props.SMAIsolation
import Verif.Props.SMAUniform
import Verif.Props.DequeIter
import Verif.Foot
import Verif.AVLFoot
import Verif.AVLFootDelete
import Verif.AVLFootErase
import Verif.Props.TreeUpdate
import Verif.Spec.AVLSwap
import Verif.AVLSwapAny
import Verif.Props.AVLSwap
import Verif.Props.Instrument
import Verif.SMAMode
import Verif.ListPool
import Verif.PoolSlots
import Verif.ListPoolSim
import Verif.ListPoolOps
import Verif.Spec.ListPool
import Verif.ListPoolWorld
import Verif.Props.ListPool
import Verif.Spec.SMASplit
import Verif.Props.SMASplit
import Verif.Spec.VectorGrow
import Verif.VectorGrow
import Verif.Props.VectorGrow
import Verif.TreePool
import Verif.TreePoolSim
import Verif.TreePoolOps
import Verif.TreePoolBst
import Verif.TreePoolAvl
import Verif.TreePoolWorld
import Verif.TreePoolBstRun
import Verif.TreePoolRun
import Verif.Spec.TreePool
import Verif.Props.TreePool
import Verif.MapPool
import Verif.Spec.MapPool
import Verif.MapPoolRun
import Verif.Props.MapPool
import Verif.DisjointSetOrder
import Verif.Spec.DisjointSetOrder
import Verif.DisjointSetOrderLemmas
import Verif.Props.DisjointSetOrder
import Verif.HeapPool
import Verif.HeapPoolSim
import Verif.Spec.HeapPool
import Verif.HeapPoolWorld
import Verif.Props.HeapPool
import Verif.StringPool
import Verif.StringPoolSim
import Verif.Spec.StringPool
import Verif.StringPoolWorld
import Verif.Props.StringPool
import Verif.XStackPool
import Verif.XStackPoolSim
import Verif.Spec.XStackPool
import Verif.XStackPoolWorld
import Verif.Props.XStackPool
import Verif.DisjointSetPool
import Verif.DisjointSetPoolSim
import Verif.Spec.DisjointSetPool
import Verif.DisjointSetPoolWorld
import Verif.Props.DisjointSetPool
import Verif.SharedPool
import Verif.Spec.SharedPool
import Verif.SharedPoolSound
import Verif.SharedPoolDeques
import Verif.SharedPoolRun
import Verif.SharedPoolNodes
import Verif.Props.SharedPool
import Verif.Props.SMAPolicy
import Verif.DequePool
import Verif.DequePoolTrace
import Verif.DequePoolRel
import Verif.DequePoolPres
import Verif.DequePoolPrims
import Verif.Spec.DequePool
import Verif.DequePoolOps
import Verif.DequePoolRun
import Verif.Props.DequePool
import Verif.AdapterPool
import Verif.QueuePoolTrace
import Verif.Props.AdapterPool
import Verif.Props.QueueLife
