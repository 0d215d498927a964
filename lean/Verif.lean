import Verif.Props.BumpSafety
import Verif.Props.BumpConcurrency
import Verif.Props.AllocTraits
import Verif.Props.BumpGlobal
import Verif.Props.Unsync
import Verif.Props.UnsyncMem
import Verif.Props.Chain
import Verif.Props.ChainMem
import Verif.Props.ExitMem
import Verif.Props.Boxes
import Verif.Props.ExitStack
import Verif.Props.Uninit
import Verif.Props.FixedVec
import Verif.Props.FixedVecOps
import Verif.Props.Rc
import Verif.Props.RcCount
import Verif.Props.AllocExt
import Verif.Props.Fill
import Verif.Props.Unsize
import Verif.Props.ConcGlobal
import Verif.Props.Compare
import Verif.Props.FixedVecMem
import Verif.Props.Zeroed
import Verif.Props.Arena
import Verif.Props.RcMem
import Verif.Props.BoxesRefine
import Verif.Props.FixedVecBytes
import Verif.Props.BumpBoxes
import Verif.Props.Compose
import Verif.Props.BumpOrder
import Verif.Props.ConcBoxes
import Verif.Props.Program
import Verif.Props.Exact
import Verif.Props.BoxMem
import Verif.Props.Pinned
import Verif.Cases.Bump
import Verif.Cases.Unsync
import Verif.Cases.Uninit
import Verif.Cases.Fill
import Verif.Cases.Boxes
import Verif.Cases.FixedVec
import Verif.Cases.Rc
import Verif.Cases.Compare
import Verif.Cases.Chain
import Verif.Cases.BumpBoxes
import Verif.Cases.Alloc
import Verif.Cases.ExitStack
import Verif.Cases.Unsize
import Verif.Cases.Conc
import Verif.Cases.Compose
import Verif.Cases.BoxMem
import Verif.Cases.Pinned
import Verif.Cases.RepoTests
import Verif.Cases.DocTests
import Verif.Spec.MemoryModel
import Verif.Model.BumpLocal
import Verif.Proofs.MemoryModel
import Verif.Proofs.BumpLocal
import Verif.Proofs.BumpComplete
import Verif.Proofs.ConcBoxesTrace
import Verif.Props.MemoryModel
import Verif.Cases.MemoryModel
import Verif.Proofs.MemoryProject
import Verif.Model.GlobalLocal
import Verif.Spec.GlobalRaces
import Verif.Proofs.GlobalLocal
import Verif.Proofs.GlobalRaces
import Verif.Props.GlobalRaces
import Verif.Cases.GlobalRaces
import Verif.Spec.GlobalContents
import Verif.Proofs.GlobalTrace
import Verif.Proofs.GlobalContents
import Verif.Props.GlobalContents
import Verif.Spec.GlobalInterleaving
import Verif.Proofs.GlobalInterleaving
import Verif.Proofs.GlobalComplete
import Verif.Props.GlobalInterleaving
import Verif.Spec.Linked
import Verif.Model.Linked
import Verif.Proofs.Linked
import Verif.Props.Linked
import Verif.Cases.Linked
import Verif.Spec.Shared
import Verif.Model.Shared
import Verif.Proofs.Shared
import Verif.Props.Shared
import Verif.Cases.Shared
import Verif.Spec.Nested
import Verif.Model.Nested
import Verif.Proofs.Nested
import Verif.Props.Nested
import Verif.Cases.Nested
import Verif.Spec.Dtor
import Verif.Spec.Mixed
import Verif.Model.Dtor
import Verif.Model.Mixed
import Verif.Proofs.Dtor
import Verif.Proofs.Mixed
import Verif.Props.Dtor
import Verif.Props.Mixed
import Verif.Cases.Dtor
import Verif.Cases.Mixed
import Verif.Spec.FillDrops
import Verif.Model.FillDrops
import Verif.Proofs.FillDrops
import Verif.Props.FillDrops
import Verif.Cases.FillDrops
import Verif.Spec.ExitNest
import Verif.Model.ExitNest
import Verif.Proofs.ExitNest
import Verif.Proofs.ExitNestSpec
import Verif.Props.ExitNest
import Verif.Cases.ExitNest
import Verif.Spec.Borrows
import Verif.Model.VecBorrows
import Verif.Spec.VecBorrows
import Verif.Proofs.Borrows
import Verif.Proofs.VecBorrows
import Verif.Proofs.VecBorrowsStep
import Verif.Props.VecBorrows
import Verif.Cases.VecBorrows
import Verif.Model.BumpBorrows
import Verif.Spec.BumpBorrows
import Verif.Proofs.BorrowsCol
import Verif.Proofs.BumpBorrows
import Verif.Proofs.BumpBorrowsStep
import Verif.Proofs.BumpBorrowsKept
import Verif.Props.BumpBorrows
import Verif.Cases.BumpBorrows
import Verif.Model.RcBorrows
import Verif.Spec.RcBorrows
import Verif.Proofs.BorrowsMem
import Verif.Proofs.RcBorrows
import Verif.Proofs.RcBorrowsCount
import Verif.Proofs.RcBorrowsStep
import Verif.Props.RcBorrows
import Verif.Cases.RcBorrows
import Verif.Model.ExitMove
import Verif.Spec.ExitMove
import Verif.Props.ExitMove
import Verif.Cases.ExitMove
import Verif.Model.ExitBorrows
import Verif.Spec.ExitBorrows
import Verif.Proofs.ExitBorrows
import Verif.Props.ExitBorrows
import Verif.Cases.ExitBorrows
