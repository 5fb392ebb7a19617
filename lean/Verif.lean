import Verif.Basic
import Verif.State.Model
import Verif.State.Props
import Verif.Defect.Model
import Verif.Defect.Props
import Verif.Sqlite.Model
import Verif.Sqlite.Props
import Verif.Conf.Model
import Verif.Conf.Props
import Verif.Wigner.Symbols
import Verif.Element.Model
import Verif.Element.Props
import Verif.ElemCache.Model
import Verif.ElemCache.Props
import Verif.Green.Model
import Verif.Green.Props
import Verif.Wave.Model
import Verif.Wave.Props
import Verif.Matfile.Model
import Verif.Matfile.Props
import Verif.SysOne.Model
import Verif.SysOne.Props
import Verif.SysOne.Refl
import Verif.Sys.Model
import Verif.Sys.Props
import Verif.Sys.Update
import Verif.Sys.Add
import Verif.Sys.HamModel
import Verif.Sys.EffModel
import Verif.Sys.Eff
import Verif.Sys.EffThm
import Verif.Sys.Ham
import Verif.Sys.Param
import Verif.Field.Props
import Verif.Pair.Model
import Verif.Pair.Props
import Verif.Pair.Multi
import Verif.Pair.Settings
import Verif.Pair.BasisModel
import Verif.Pair.Basis
import Verif.Pair.BasisComplete
import Verif.Pair.BasisEx
import Verif.Pair.BasisSafe
import Verif.Pert.Model
import Verif.Pert.Props
import Verif.Pert.Matrix
import Verif.Legacy.Basisnames
import Verif.Rot.Rep
import Verif.Rot.WignerD
import Verif.Rot.Props
import Verif.Numpy
import Verif.Serialize
import Verif.Rot.Invariant
import Verif.Rot.Tensor
import Verif.Rot.StateModel
import Verif.Rot.State
import Verif.Rot.PairState
import Verif.Rot.StateMore
import Verif.Rot.Vector
import Verif.Rot.Covariance
import Verif.Rot.FieldCov
import Verif.Rot.PairCov
import Verif.Rot.PairThm
import Verif.Legacy.ElemModel
import Verif.Legacy.Elem
import Verif.Legacy.HamOneModel
import Verif.Legacy.HamOne
import Verif.Legacy.TwoModel
import Verif.Legacy.Two
import Verif.Legacy.CombineModel
import Verif.Legacy.BlockLemma
import Verif.Legacy.Combine
import Verif.Legacy.Blocks
import Verif.Legacy.Exchange
import Verif.Legacy.Spectrum
import Verif.Legacy.Herm
import Verif.Legacy.Sector
import Verif.Legacy.ReflLemma
import Verif.Legacy.ReflCols
import Verif.Legacy.ReflBlock
import Verif.Legacy.Reflect
import Verif.Legacy.ReflRun
import Verif.Legacy.ReflFail
import Verif.ElemCache.DipoleModel
import Verif.ElemCache.DipoleLemma
import Verif.ElemCache.Dipole
import Verif.ElemCache.DipoleThm
import Verif.Legacy.ThreadsModel
import Verif.Legacy.Threads
import Verif.Legacy.ThreadsThm
import Verif.Sys.CombineModel
import Verif.Sys.Combine
import Verif.Sys.CombineThm
import Verif.Legacy.MainModel
import Verif.Legacy.Main
import Verif.Legacy.StepsModel
import Verif.Legacy.Steps
import Verif.Legacy.RestrictModel
import Verif.Legacy.Restrict
import Verif.Legacy.RestrictBlock
import Verif.Legacy.RestrictThm
import Verif.SysOne.LifeModel
import Verif.SysOne.Life
import Verif.SysOne.LifeThm
import Verif.Sys.WindowModel
import Verif.Sys.Window
import Verif.Sys.WindowThm
import Verif.SysOne.LifeOrder
import Verif.Pair.SelectModel
import Verif.Pair.Select
import Verif.Pair.SelectThm
import Verif.Pair.SelectEx
import Verif.Pair.SelectNum
import Verif.Sys.LabelModel
import Verif.Sys.Label
import Verif.Pair.SelectMix
import Verif.Legacy.KeyModel
import Verif.Legacy.Key
import Verif.Legacy.KeyNec
import Verif.Legacy.KeyPair
import Verif.Legacy.KeyThm
import Verif.Legacy.KeyEx
import Verif.Legacy.KeyFail
import Verif.Sys.LookupModel
import Verif.Sys.Lookup
import Verif.Pair.SymModel
import Verif.Pair.Sym
import Verif.Pair.SymEx
import Verif.ElemCache.PrecalcModel
import Verif.ElemCache.Precalc
import Verif.Pair.User
import Verif.Pair.UserEx
import Verif.Matfile.ObjModel
import Verif.Matfile.ObjProps
import Verif.Matfile.ObjEx
import Verif.Rot.AxesModel
import Verif.Rot.Axes
import Verif.Pair.SectorModel
import Verif.Pair.Sector
import Verif.Pair.SectorThm
import Verif.Pair.SectorIff
import Verif.Pair.SectorEx
import Verif.Pair.SectorMom
import Verif.Pair.SectorMomThm
import Verif.Pair.SectorMomEx
import Verif.Pair.SectorRefl
import Verif.Pair.SectorReflThm
import Verif.Pair.SectorReflMain
import Verif.Pair.SectorReflDir
import Verif.Pair.SectorReflEx
import Verif.Pair.SectorBasis
import Verif.Wave.Schroedinger
import Verif.Wave.NumerovError
import Verif.Wave.WhittakerModel
import Verif.Wave.WhittakerThm
import Verif.Wave.SchroedingerThm
import Verif.Wave.Hydrogen
import Verif.Sqlite.Loops
import Verif.Pair.GreenFlag
import Verif.Legacy.UnitsThm
import Verif.Pair.SectorQuad
import Verif.Rot.SpecSym
import Verif.Rot.Kramers
import Verif.Rot.PairSpecSym
import Verif.State.PrintModel
import Verif.State.Print
import Verif.Sqlite.BusyModel
import Verif.Sqlite.Busy
import Verif.Sys.LevelCount
import Verif.Rot.Levels
import Verif.Rot.Weyl
import Verif.Rot.ThreeJNorm
import Verif.Rot.SumRule
import Verif.Element.Lande
import Verif.Rot.Recouple
import Verif.Rot.RecoupleEnd
import Verif.Rot.SixJSum
import Verif.Rot.SixJGen
import Verif.Rot.Decouple
import Verif.Rot.DecoupleSpin
import Verif.Rot.Multiplet
import Verif.Rot.Trace
import Verif.Rot.Spread
import Verif.Rot.VanDerWaals
import Verif.Rot.VanDerWaalsMatrix
import Verif.Rot.VanDerWaalsTilt
import Verif.Rot.ResonantShift
import Verif.Rot.WeakFields
import Verif.Rot.StarkShift
import Verif.Rot.LinearStark
