import Verif.Ar1
import Verif.Ar1Model
import Verif.Bcol
import Verif.BcolLemmas
import Verif.BcolModel
import Verif.BiasEdf
import Verif.BiasEdfModel
import Verif.Bound
import Verif.BoundEx
import Verif.BoundModel
import Verif.Bspline
import Verif.BsplineLemmas
import Verif.BsplineModel
import Verif.BsplineUnits
import Verif.Cand
import Verif.CandLemmas
import Verif.CandModel
import Verif.Causal
import Verif.Chk
import Verif.ChkModel
import Verif.Classes
import Verif.ClassesEx
import Verif.Clus
import Verif.ClusLemmas
import Verif.ClusModel
import Verif.Coef
import Verif.CoefLemmas
import Verif.CoefModel
import Verif.Compact
import Verif.CompactInv
import Verif.CompactLemmas
import Verif.CompactModel
import Verif.CompactStore
import Verif.Compare
import Verif.CompareModel
import Verif.Cond
import Verif.CondLemmas
import Verif.CondModel
import Verif.Cons
import Verif.ConsLemmas
import Verif.ConsModel
import Verif.Conv
import Verif.ConvEx
import Verif.ConvLocal
import Verif.ConvLocalEx
import Verif.ConvStop
import Verif.ConvStopEx
import Verif.DChol
import Verif.DCholLemmas
import Verif.DCholModel
import Verif.Decode
import Verif.Dens
import Verif.DensIg
import Verif.DensLemmas
import Verif.DensModel
import Verif.DensMvn
import Verif.DensT
import Verif.DigammaLemmas
import Verif.Drop
import Verif.DropExtra
import Verif.DropExtraModel
import Verif.DropModel
import Verif.Dropped
import Verif.DroppedModel
import Verif.Edf
import Verif.EdfModel
import Verif.Embed
import Verif.EmbedLemmas
import Verif.EmbedModel
import Verif.EmbedRank
import Verif.Encode
import Verif.EncodeModel
import Verif.Equi
import Verif.EquiLemmas
import Verif.EquiModel
import Verif.EquiSpec
import Verif.EtaBeta
import Verif.EtaBetaLemmas
import Verif.EtaBetaModel
import Verif.Exist
import Verif.ExistEx
import Verif.Fam
import Verif.FamLemmas
import Verif.FamModel
import Verif.Files
import Verif.FilesModel
import Verif.Fit
import Verif.FitLlk
import Verif.FitModel
import Verif.Fl
import Verif.Ftest
import Verif.FtestLemmas
import Verif.FtestRatio
import Verif.GamLocal
import Verif.GamLocalEx
import Verif.Gauss
import Verif.GaussLemmas
import Verif.GaussModel
import Verif.Glrt
import Verif.GlrtEx
import Verif.GlrtModel
import Verif.HazExist
import Verif.HazExistEx
import Verif.Hazard
import Verif.HazardModel
import Verif.Hsmm
import Verif.HsmmAr
import Verif.HsmmArModel
import Verif.HsmmDirLemmas
import Verif.HsmmEv
import Verif.HsmmEvData
import Verif.HsmmEvEx
import Verif.HsmmEvLemmas
import Verif.HsmmEvModel
import Verif.HsmmFam
import Verif.HsmmFamLemmas
import Verif.HsmmFamLemmas2
import Verif.HsmmFamModel
import Verif.HsmmFtp
import Verif.HsmmFtpLemmas
import Verif.HsmmFtpModel
import Verif.HsmmGrad
import Verif.HsmmGradLemmas
import Verif.HsmmGradModel
import Verif.HsmmLemmas
import Verif.HsmmMg
import Verif.HsmmMgLemmas
import Verif.HsmmMgLemmas2
import Verif.HsmmMgLemmas3
import Verif.HsmmMgModel
import Verif.HsmmModel
import Verif.HsmmPred
import Verif.HsmmPredLaw
import Verif.HsmmPredLemmas
import Verif.HsmmPredModel
import Verif.HsmmRel
import Verif.HsmmRelDec
import Verif.HsmmRelEx
import Verif.HsmmRelFam
import Verif.HsmmRelFamModel
import Verif.HsmmRelLemmas
import Verif.HsmmRelModel
import Verif.HsmmRelSeg
import Verif.HsmmSim
import Verif.HsmmSimModel
import Verif.HsmmSpec
import Verif.HsmmWrap
import Verif.HsmmWrapLemmas
import Verif.HsmmWrapModel
import Verif.Iface
import Verif.IfaceEx
import Verif.Init
import Verif.InitModel
import Verif.Invar
import Verif.InvarEx
import Verif.InvarFam
import Verif.InvarLemmas
import Verif.InvarModel
import Verif.Jhess
import Verif.JhessModel
import Verif.Joint
import Verif.JointModel
import Verif.Lam
import Verif.LamModel
import Verif.LamTrace
import Verif.Lap
import Verif.LapModel
import Verif.LapSpec
import Verif.Layout
import Verif.LayoutLemmas
import Verif.LayoutModel
import Verif.LayoutTerms
import Verif.Lml
import Verif.LmlEx
import Verif.LmlFam
import Verif.LmlLemmas
import Verif.LmlModel
import Verif.LmlSaddle
import Verif.LmlSpec
import Verif.LogDetLemmas
import Verif.Lss
import Verif.LssBound
import Verif.LssBoundEx
import Verif.LssGamma
import Verif.LssModel
import Verif.MGauss
import Verif.MGaussLemmas
import Verif.MGaussModel
import Verif.Mmat
import Verif.MmatLemmas
import Verif.MmatModel
import Verif.MulExist
import Verif.MulExistEx
import Verif.Mvn
import Verif.MvnModel
import Verif.NatPar
import Verif.NatParLemmas
import Verif.NatParModel
import Verif.Nest
import Verif.NestLemmas
import Verif.NestModel
import Verif.Nested
import Verif.NestedEx
import Verif.NewtConv
import Verif.NewtConvEx
import Verif.NewtDamp
import Verif.NewtLevel
import Verif.NewtLevelEx
import Verif.NewtLocal
import Verif.NewtLocalEx
import Verif.NewtQuad
import Verif.NewtStop
import Verif.NewtStopEx
import Verif.Newton
import Verif.NewtonModel
import Verif.Nuts
import Verif.NutsInv
import Verif.NutsLemmas
import Verif.NutsLoop
import Verif.NutsMeasure
import Verif.NutsModel
import Verif.NutsOut
import Verif.Outer
import Verif.OuterLemmas
import Verif.OuterModel
import Verif.OuterRange
import Verif.Par
import Verif.ParModel
import Verif.Pen
import Verif.PenLemmas
import Verif.PenModel
import Verif.Pirls
import Verif.PirlsAgg
import Verif.PirlsAggEx
import Verif.PirlsAggModel
import Verif.PirlsInv
import Verif.PirlsInvEx
import Verif.PirlsInvLemmas
import Verif.PirlsInvModel
import Verif.PirlsLemmas
import Verif.PirlsModel
import Verif.PirlsSpec
import Verif.Pool
import Verif.PoolCode
import Verif.Predict
import Verif.PredictLemmas
import Verif.PredictModel
import Verif.PredictWhole
import Verif.Qf
import Verif.QfAcc
import Verif.QfAux
import Verif.QfEx
import Verif.QfLaw
import Verif.QfLemmas
import Verif.QfModel
import Verif.QfTrap
import Verif.QfTrunc
import Verif.QfUnits
import Verif.QfWave
import Verif.Qfac
import Verif.QfacLemmas
import Verif.QfacModel
import Verif.Redund
import Verif.RedundEx
import Verif.RedundModel
import Verif.Reml
import Verif.RemlModel
import Verif.Repara
import Verif.ReparaAsm
import Verif.ReparaAsmModel
import Verif.ReparaModel
import Verif.Resample
import Verif.ResampleEx
import Verif.ResampleModel
import Verif.Resid
import Verif.ResidModel
import Verif.Resp
import Verif.RespLemmas
import Verif.RespModel
import Verif.Rho
import Verif.RhoLemmas
import Verif.RhoModel
import Verif.Ridge
import Verif.RidgeLemmas
import Verif.RidgeModel
import Verif.Rl
import Verif.RlLemmas
import Verif.RlModel
import Verif.RlSpec
import Verif.Root
import Verif.RootFit
import Verif.RootLemmas
import Verif.RootModel
import Verif.RootQr
import Verif.RootSquare
import Verif.Rows
import Verif.RowsModel
import Verif.Sample
import Verif.SampleModel
import Verif.Scale
import Verif.ScaleModel
import Verif.ScaledT
import Verif.ScaledTModel
import Verif.Sched
import Verif.SchedModel
import Verif.Secant
import Verif.SecantDraw
import Verif.SecantLemmas
import Verif.SecantModel
import Verif.Seeds
import Verif.SeedsModel
import Verif.Shape
import Verif.ShapeEx
import Verif.ShapeFam
import Verif.ShapeLemmas
import Verif.ShapeModel
import Verif.Shared
import Verif.Smo
import Verif.SmoEx
import Verif.SmoGlm
import Verif.SmoGlmEx
import Verif.SmoLemmas
import Verif.Sparse
import Verif.SparseModel
import Verif.Split
import Verif.SplitModel
import Verif.Step
import Verif.StepModel
import Verif.StepSize
import Verif.StepSizeModel
import Verif.Stop
import Verif.StopLemmas
import Verif.StopModel
import Verif.Summary
import Verif.SummaryLemmas
import Verif.SummaryModel
import Verif.SummaryRows
import Verif.Tensor
import Verif.TensorModel
import Verif.Totals
import Verif.TotalsEx
import Verif.Viterbi
import Verif.ViterbiLemmas
import Verif.ViterbiModel
import Verif.Wald
import Verif.WaldInt
import Verif.WaldLemmas
import Verif.WaldModel
import Verif.Wps
import Verif.WpsCorr
import Verif.WpsCrit
import Verif.WpsLemmas
import Verif.WpsModel
