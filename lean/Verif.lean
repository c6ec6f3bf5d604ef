import Verif.Base.Res
import Verif.Base.CInt
import Verif.Bounded.Integer
import Verif.Bounded.IntegerProps
import Verif.Bounded.Arith
import Verif.Bounded.Div
import Verif.Bounded.ArithProps
import Verif.Bounded.Mod
import Verif.Bounded.ModProps
import Verif.Bounded.Shift
import Verif.Bounded.Exactly
import Verif.Bounded.MinMax
import Verif.Bounded.MinMaxProps
import Verif.Bounded.Assign
import Verif.Bounded.AssignProps
import Verif.Bounded.CheckInRange
import Verif.Bounded.LogPow
import Verif.Bounded.Digits
import Verif.Bounded.ToInteger
import Verif.Bounded.ToString
import Verif.Bounded.Tombstone
import Verif.Bounded.Accumulate
import Verif.Base.Hist
import Verif.Tv.Variant
import Verif.Tv.OptionalNest
import Verif.Tv.Optional
import Verif.Tv.Visit
import Verif.Tv.Tuple
import Verif.Containers.Mem
import Verif.Containers.Iface
import Verif.Containers.Generic
import Verif.Containers.Spec
import Verif.Containers.CellProps
import Verif.Containers.GenericProps
import Verif.Containers.World
import Verif.Containers.Vector
import Verif.Containers.VectorWorld
import Verif.Containers.VectorProps
import Verif.Containers.StaticVector
import Verif.Containers.SboSize
import Verif.Containers.Sbo
import Verif.Containers.SboWorld
import Verif.Lists.Heap
import Verif.Lists.Inv
import Verif.Lists.Prims
import Verif.Lists.Bidir
import Verif.Lists.BidirProps
import Verif.Lists.Forward
import Verif.Lists.ForwardInv
import Verif.Lists.ForwardProps
import Verif.Lists.SizedList
import Verif.Lists.SizedProps
import Verif.Algo.Order
import Verif.Algo.Mem
import Verif.Algo.SortNet
import Verif.Algo.SortExactly
import Verif.Algo.SortExactlyProps
import Verif.Algo.Search
import Verif.Algo.Partition
import Verif.Algo.Merge
import Verif.Algo.Sort
import Verif.Algo.RadixKey
import Verif.Algo.KeyDesc
import Verif.Algo.DoubleBuffered
import Verif.Algo.SkaSort
import Verif.Algo.SkaBytes
import Verif.Algo.SkaProps
import Verif.Algo.SkaEarly
import Verif.Algo.SkaOnce
import Verif.Algo.Unique
import Verif.Algo.UniqueProps
import Verif.Algo.SetIntersection
import Verif.Views.Basic
import Verif.Views.Compare
import Verif.Views.Adapt
import Verif.Views.Zip
import Verif.Views.Adjacent
import Verif.Views.IntegerRange
import Verif.Views.Split
import Verif.Views.Join
import Verif.Views.ConcatView
import Verif.Views.Batched
import Verif.Algo.Reverse
import Verif.Containers.MoveSource
import Verif.Containers.Concatenate
import Verif.Maps.FlatMap
import Verif.Maps.FlatMapProps
import Verif.Maps.Upsert
import Verif.Maps.MultiMap
import Verif.Maps.LinearMap
import Verif.Containers.DynamicArray
import Verif.Containers.Alias
import Verif.Views.Generate
import Verif.Containers.Returned
import Verif.Lists.Returned
import Verif.Containers.StdStyle
import Verif.Bounded.Stream
import Verif.Containers.StringStream
import Verif.Bounded.Literal
import Verif.Bounded.Mixed
import Verif.Bounded.Scope
import Verif.Containers.InplaceFunction
import Verif.Maps.Keyed
import Verif.Containers.Strings
import Verif.Bounded.MinMaxRef
import Verif.Containers.DynamicArrayMove
import Verif.Iter.Legacy
import Verif.Containers.Stable
import Verif.Containers.Growth
import Verif.Lists.Stable
import Verif.Algo.Calls
import Verif.Algo.CallsProps
import Verif.Algo.Throws
import Verif.Algo.ThrowsProps
import Verif.Algo.UniqueThrows
import Verif.Algo.UniqueThrowsProps
import Verif.Maps.Throws
import Verif.Containers.Bytes
import Verif.Containers.ToArray
import Verif.Containers.Bytes
import Verif.Containers.ToArray
import Verif.Views.Lifetime
import Verif.Maps.Allocations
import Verif.Lists.SelfAppend
import Verif.Lists.RemoveAlias
import Verif.Containers.EraseAlias
import Verif.Algo.RadixThrows
import Verif.Algo.RadixThrowsProps
import Verif.Algo.RadixSwaps
import Verif.Bounded.Tight
import Verif.Algo.Overlap
import Verif.Algo.OverlapThrows
import Verif.Algo.ConcatenateForeign
import Verif.Tv.OwnValue
import Verif.Tv.OptionalRef
import Verif.Algo.SwapThrows
import Verif.Tv.MemberTomb
import Verif.Views.Count
import Verif.Containers.TooMany
import Verif.Containers.Algorithms
import Verif.Maps.Compare
import Verif.Bounded.Program
import Verif.Containers.Observe
import Verif.Maps.OnVector
import Verif.Bounded.NoThrow
import Verif.Views.Pipeline
import Verif.Containers.FromView
import Verif.Containers.StdVector
import Verif.Lists.Programs
import Verif.Maps.Programs
import Verif.Lists.ForwardPrograms
import Verif.Containers.ManyVectors
import Verif.Bounded.BitCast
import Verif.Containers.ManySmall
import Verif.Maps.ManyMaps
import Verif.Maps.SmallMaps
import Verif.Views.RemoveNone
import Verif.Algo.SwapProgs
import Verif.Algo.SortSwaps
import Verif.Algo.NewSortSwaps
import Verif.Algo.AssignThrows
import Verif.Maps.LinearSwaps
import Verif.Bounded.MixedProgram
import Verif.Views.Throwing
import Verif.Views.ThrowingAlgo
import Verif.Views.ThrowingJoin
import Verif.Views.ThrowingSplit
import Verif.Views.ThrowingSearch
import Verif.Containers.FromThrowingView
import Verif.Containers.ConcatenateThrowing
import Verif.Containers.AssignThrowing
import Verif.Lists.FromThrowingView
import Verif.Lists.AssignThrowing
import Verif.Lists.ForwardAssignThrowing
import Verif.Lists.ViewHistory
import Verif.Lists.PlainViewHistory
