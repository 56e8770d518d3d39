import Verif.Sched
import Verif.Tile
import Verif.Layout
import Verif.LayoutGeneral
import Verif.LayoutTri
import Verif.Ops
import Verif.Mat
import Verif.Env
import Verif.Gemm
import Verif.GemmProof
import Verif.Exec
import Verif.Driver
import Verif.Props.Gemm
import Verif.Desc
import Verif.Props.Layout
import Verif.Props.Desc
import Verif.Barrier
import Verif.Props.Barrier
import Verif.Context
import Verif.Props.Context
import Verif.Par
import Verif.DriverK
import Verif.Rank
import Verif.RankProof
import Verif.Symm
import Verif.Props.Rank
import Verif.TriMath
import Verif.Trsm
import Verif.Props.Trsm
import Verif.AuxNests
import Verif.Props.AuxOps
import Verif.Trmm
import Verif.Props.Trmm
import Verif.Guard
import Verif.GExec
import Verif.CholMath
import Verif.Potrf
import Verif.Props.Potrf
import Verif.Props.Posv
import Verif.Trtri
import Verif.Lauum
import Verif.Props.Trtri
import Verif.ArgCheck
import Verif.Props.Args
import Verif.SturmMath
import Verif.Stevx
import Verif.Props.Stevx
import Verif.LUMath
import Verif.Comb
import Verif.Spmd
import Verif.Panel
import Verif.PanelEff
import Verif.PanelProof
import Verif.PanelRun
import Verif.Geswp
import Verif.Getrf
import Verif.GetrfProof
import Verif.GetrfGood
import Verif.DriverG
import Verif.GeswpProof
import Verif.LUSing
import Verif.LuSolve
import Verif.Props.Geswp
import Verif.Props.Lu
import Verif.Props.LuSolve
import Verif.Getri
import Verif.GetrfBase
import Verif.Props.Getri
import Verif.Props.LuRace
import Verif.Norm
import Verif.NormMath
import Verif.NormKern
import Verif.Props.Norm
import Verif.Workspace
import Verif.Props.Workspace
import Verif.Refine
import Verif.Props.Mixed
import Verif.Tree
import Verif.Props.Tree
import Verif.QrMath
import Verif.Wop
import Verif.Qr
import Verif.QrApply
import Verif.QrFactor
import Verif.QrProg
import Verif.QrGood
import Verif.DriverT
import Verif.House
import Verif.HouseQr
import Verif.HouseKern
import Verif.Props.Qr
import Verif.Props.QrThreads
import Verif.Lq
import Verif.LqSim
import Verif.LqGood
import Verif.Props.Lq
import Verif.LsMath
import Verif.Gels
import Verif.Props.Gels
import Verif.Band
import Verif.Pbtrf
import Verif.DriverB
import Verif.Props.Band
import Verif.Tbsm
import Verif.Jump
import Verif.Props.Pb
import Verif.LuPiv
import Verif.LUUniq
import Verif.Props.LuPivot
import Verif.Props.DescLayout
import Verif.Pent
import Verif.Props.Pent
import Verif.Fact
import Verif.FactLq
import Verif.LKern
import Verif.Stale
import Verif.Props.Fact
import Verif.Props.Qrs
import Verif.Geinv
import Verif.Props.Geinv
import Verif.GbMath
import Verif.Gbtrf
import Verif.GbtrfProof
import Verif.GbtrfGood
import Verif.Phase
import Verif.TbsmP
import Verif.Props.Gb
import Verif.Props.GbRace
import Verif.Gbmm
import Verif.Props.Gbmm
import Verif.Langb
import Verif.Props.LangbVal
import Verif.Props.Langb
import Verif.Ge2gb
import Verif.Ge2gbBand
import Verif.Ge2gbGood
import Verif.Props.Gesdd
import Verif.Bulge
import Verif.BulgeSched
import Verif.BulgeLegal
import Verif.BulgeKern
import Verif.BulgeExec
import Verif.BulgeMath
import Verif.Props.Gbbrd
import Verif.BulgeSweep
import Verif.BulgeFold
import Verif.Props.Bidiag
import Verif.Ge2gbReal
import Verif.Ge2gbVec
import Verif.Ge2gbApply
import Verif.Props.GesddVec
import Verif.Props.GesvdVec
import Verif.Props.BlgtrdOp
import Verif.FindVT
import Verif.Props.FindVT
import Verif.Svd
import Verif.Props.Gesvd
import Verif.Props.Hetrf
import Verif.Props.Heswp
import Verif.Aasen
import Verif.AasenMath
import Verif.AasenEff
import Verif.AasenLow
import Verif.AasenProof
import Verif.Props.Aasen
import Verif.Hetrs
import Verif.AasenTask
import Verif.AasenRun
import Verif.AasenProg
import Verif.AasenGood
import Verif.AasenCov
import Verif.AasenDep
import Verif.AasenExec
import Verif.HetrsGood
import Verif.HesvCov
import Verif.AasenCode
import Verif.HesvEnv
import Verif.HesvCore
import Verif.Hesv
import Verif.HesvSing
import Verif.Props.Hesv
import Verif.Props.Hetrs
import Verif.Props.Gbset
import Verif.Partial
import Verif.Props.Lag2
import Verif.Touched
import Verif.Props.PosvFail
import Verif.Order
import Verif.Props.BandFail
import Verif.Props.PbDiag
import Verif.Props.PotrfFail
import Verif.Props.PotrfSched
import Verif.Blgtrd
import Verif.BlgtrdOrder
import Verif.BlgtrdKern
import Verif.BlgtrdRun
import Verif.Props.Blgtrd
import Verif.BulgeVec
import Verif.BulgeVecExec
import Verif.Props.GbbrdVec
import Verif.GesddRes
import Verif.Props.GesddRes
