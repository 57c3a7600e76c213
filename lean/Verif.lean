import Verif.Model.Basic
import Verif.Model.Iter
import Verif.Model.Details
import Verif.Model.Copy
import Verif.Model.Query
import Verif.Model.Shift
import Verif.Spec
import Verif.Lemmas.Wp
import Verif.Lemmas.Iter
import Verif.Lemmas.Word
import Verif.Lemmas.Map
import Verif.Lemmas.Map2
import Verif.Lemmas.CopyBackward
import Verif.Lemmas.Query
import Verif.Lemmas.ShiftLeft
import Verif.Lemmas.ShiftRight
import Verif.Lemmas.Swap
import Verif.Lemmas.Rotate
import Verif.Lemmas.Bitswap
import Verif.Lemmas.Reverse
import Verif.Lemmas.RotateMore
import Verif.Lemmas.Footprint
import Verif.Props.Run
import Verif.Props.Iterators
import Verif.Props.Copy
import Verif.Props.Query
import Verif.Lemmas.Overshift
import Verif.Props.Shift
import Verif.Props.Rotate
import Verif.Props.Overshift
import Verif.Model.Instr
import Verif.SpecWord
import Verif.Lemmas.Instr
import Verif.Lemmas.Instr2
import Verif.Lemmas.Count
import Verif.Props.Words
import Verif.Props.Agree
import Verif.Model.Ref
import Verif.SpecRef
import Verif.Lemmas.Ref
import Verif.Props.Refs
import Verif.Model.Wrap
import Verif.Lemmas.Wrap
import Verif.Props.Wrap
import Verif.Model.Promotion
import Verif.Lemmas.Promotion
import Verif.Props.Promotion
import Verif.Model.Stream
import Verif.Props.Stream
import Verif.Model.Popcnt
import Verif.Lemmas.Popcnt
import Verif.Lemmas.Popcnt2
import Verif.Props.Popcnt
import Verif.Model.Vector
import Verif.SpecVec
import Verif.Lemmas.Vec
import Verif.Lemmas.BVec
import Verif.Lemmas.BVec2
import Verif.Lemmas.BVec3
import Verif.Lemmas.BVecFail
import Verif.Props.Vector
import Verif.Props.Vector2
import Verif.Props.VectorHistory
import Verif.Model.Hwy
import Verif.Lemmas.Hwy
import Verif.Lemmas.HwyFull
import Verif.Props.Hwy
import Verif.Model.Helpers
import Verif.Lemmas.Helpers
import Verif.Props.Helpers
import Verif.Lemmas.BVecAlg
import Verif.Props.VectorAlg
import Verif.Props.Programs
import Verif.Model.Types
import Verif.Props.Types
import Verif.Model.Null
import Verif.Props.Null
import Verif.Model.Bytes
import Verif.Lemmas.Bytes
import Verif.Props.Mixed
import Verif.Model.IterOps
import Verif.Props.IterOps
import Verif.Model.Throw
import Verif.SpecThrow
import Verif.Lemmas.Throw
import Verif.Props.Throw
import Verif.Props.ThrowExact
import Verif.Model.CountMem
import Verif.SpecPopcnt
import Verif.Lemmas.CountMem
import Verif.Props.CountMem
import Verif.Props.Vacated
import Verif.SpecIso
import Verif.Lemmas.Iso
import Verif.Props.Isolation
import Verif.Props.Exact
import Verif.Model.Tests
import Verif.SpecTests
import Verif.Lemmas.Tests
import Verif.Lemmas.Fixture
import Verif.Props.Tests
import Verif.SpecThreads
import Verif.Lemmas.Threads
import Verif.Lemmas.Code
import Verif.Props.Threads
import Verif.Props.WordType
import Verif.Model.Cpuid
import Verif.SpecCpuid
import Verif.Props.Cpuid
import Verif.Model.Bench
import Verif.SpecBench
import Verif.Lemmas.Bench
import Verif.Props.Bench
import Verif.Model.Overload
import Verif.Props.Overload
import Verif.SpecStore
import Verif.Lemmas.Store
import Verif.Lemmas.StoreOps
import Verif.SpecActs
import Verif.Lemmas.Acts
import Verif.Props.Store
import Verif.Props.StoreClean
import Verif.Model.Client
import Verif.SpecClient
import Verif.Lemmas.Client
import Verif.Props.Client
import Verif.Model.StdAlg
import Verif.Lemmas.StdAlg
import Verif.Props.StdAlg
import Verif.Model.Keep
import Verif.SpecKeep
import Verif.Lemmas.Keep
import Verif.Props.Keep
import Verif.Model.Allocs
import Verif.SpecAllocs
import Verif.Lemmas.Allocs
import Verif.Props.Allocs
import Verif.Model.Generic
import Verif.SpecCost
import Verif.Lemmas.Generic
import Verif.Lemmas.Erase
import Verif.Lemmas.Cost
import Verif.Lemmas.Cost2
import Verif.Lemmas.Cost3
import Verif.Lemmas.Cost4
import Verif.Lemmas.Cost5
import Verif.Props.Cost
import Verif.SpecTrace
import Verif.Lemmas.Trace
import Verif.Lemmas.Puts
import Verif.Props.Trace
import Verif.Model.Billed
import Verif.SpecAmort
import Verif.Lemmas.Billed
import Verif.Lemmas.Amort
import Verif.Props.Amort
import Verif.Model.Cpp20
import Verif.SpecCpp20
import Verif.Lemmas.Cpp20
import Verif.Lemmas.Cpp20Rot
import Verif.Lemmas.Cpp20Vec
import Verif.Lemmas.Cpp20Keep
import Verif.Props.Cpp20
import Verif.Model.Const
import Verif.Model.Compile
import Verif.SpecConst
import Verif.Lemmas.Const
import Verif.Props.Const
import Verif.SpecPointers
import Verif.Model.Pointers
import Verif.Lemmas.Pointers
import Verif.Lemmas.PointersFit
import Verif.Lemmas.PointersCopy
import Verif.Lemmas.PointersBack
import Verif.Lemmas.PointersShift
import Verif.Lemmas.PointersRight
import Verif.Lemmas.PointersSwap
import Verif.Lemmas.PointersRotate
import Verif.Props.Pointers
import Verif.SpecPointersVec
import Verif.Model.PointersVec
import Verif.Lemmas.PointersVec
import Verif.Lemmas.PointersMember
import Verif.Props.PointersVec
import Verif.SpecConstruct
import Verif.Model.Construct
import Verif.Lemmas.Construct
import Verif.Lemmas.ConstructRun
import Verif.Props.Construct
import Verif.SpecExpr
import Verif.Model.Expr
import Verif.Lemmas.Expr
import Verif.Lemmas.ExprRun
import Verif.Lemmas.ExprCalls
import Verif.Lemmas.ExprMain
import Verif.Lemmas.ExprSim
import Verif.Lemmas.ExprOrder
import Verif.Props.Expr
import Verif.Model.Lookup
import Verif.SpecLookup
import Verif.Lemmas.Lookup
import Verif.Lemmas.LookupRun
import Verif.Lemmas.LookupTypes
import Verif.Props.Lookup
import Verif.Model.ConstEval
import Verif.SpecConstEval
import Verif.Lemmas.ConstEval
import Verif.Lemmas.ConstClient
import Verif.Props.ConstEval
import Verif.Model.OpCalls
import Verif.SpecOpCalls
import Verif.Lemmas.OpCalls
import Verif.Lemmas.OpPure
import Verif.Props.OpCalls
import Verif.Model.Release
import Verif.Lemmas.Release
import Verif.SpecRelease
import Verif.Props.Release
import Verif.Lemmas.NoAssert
import Verif.Lemmas.ReleaseExact
import Verif.Props.ReleaseExact
import Verif.Lemmas.FindReversed
import Verif.Props.FindExact
import Verif.SpecOverlap
import Verif.Lemmas.Overlap
import Verif.Props.Overlap
